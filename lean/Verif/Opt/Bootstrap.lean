import Verif.Base.C
import Mathlib.Data.List.Basic
import Mathlib.Tactic.Linarith

/-! # C90: the bootstrap

A data set is its list of rows; the estimation is any function of them giving the packed parameters, where `none` is NaN. `rnd k` is the number `gsl_rng_uniform_int` gives when asked for the (k+1)st time. -/

namespace Apop.Boot
variable {R K : Type}

/-! ## The models -/

/-- The rows drawn, apop_bootstrap.m4.c:144-147: row `j` of the subset is written over, for each `j` below the height; `k` numbers have been drawn before. -/
def resample (rows : List R) (rnd : ℕ → ℕ) (k : ℕ) : List R → ℕ → ℕ → Res (List R)
  | subset, _, 0 => .ok subset
  | subset, j, m + 1 => (rd rows (rnd (k + j))).bind fun r => (wr subset j r).bind fun s => resample rows rnd k s (j + 1) m

/-- `gsl_isnan(apop_sum(estp))`, line 151, as far as no infinities cancel. -/
def hasNan (e : List (Option K)) : Bool := e.any Option.isNone

/-- The loop's state: the subset, draws made, `i`, `nan_draws`, and the matrix `array_of_boots` (`none`: not allocated; a row that is `none`: not written). -/
structure S (R K : Type) where
  subset : List R
  draws : ℕ
  i : ℕ
  nans : ℕ
  boots : Option (List (Option (List (Option K))))
  deriving DecidableEq

/-- `array_of_boots`, allocated if `i` is zero, with row `i` set, lines 152-158. -/
def store (iters : ℕ) (s : S R K) (e : List (Option K)) : Res (S R K) :=
  match (if s.i = 0 then some (List.replicate iters none) else s.boots) with
  | none => .ub
  | some b => (wr b s.i (some e)).bind fun b' => .ok { s with boots := some b', i := s.i + 1 }

/-- One turn, apop_bootstrap.m4.c:143-165. `i--` and the `i++` after cancel, `i` being unsigned and free to wrap. -/
def turn (est : List R → List (Option K)) (rows : List R) (rnd : ℕ → ℕ) (iters : ℕ) (ignore : Bool) (s : S R K) : Res (S R K) :=
  (resample rows rnd (s.draws * rows.length) s.subset 0 rows.length).bind fun sub =>
    if hasNan (est sub) then
      .ok { s with subset := sub, draws := s.draws + 1, i := if ignore then s.i else s.i + 1, nans := if ignore then s.nans + 1 else s.nans }
    else store iters { s with subset := sub, draws := s.draws + 1 } (est sub)

/-- The loop, with a bound on the turns, beyond which it has no end (undefined); `C90_ignore` and `C90_clean` show twice the iterations are enough. -/
def loop (est : List R → List (Option K)) (rows : List R) (rnd : ℕ → ℕ) (iters : ℕ) (ignore : Bool) : ℕ → S R K → Res (S R K)
  | 0, s => if s.i < iters ∧ s.nans < iters then .ub else .ok s
  | f + 1, s => if s.i < iters ∧ s.nans < iters then (turn est rows rnd iters ignore s).bind fun s' => loop est rows rnd iters ignore f s' else .ok s

/-- The rows the covariance is taken of (and `boot_store` is given), and the error mark. -/
structure Out (K : Type) where
  boots : Option (List (Option (List (Option K))))
  err : Option Char
  deriving DecidableEq

/-- `apop_bootstrap_cov`, apop_bootstrap.m4.c:123-182, up to the covariance (C60); the mark of `apop_return_data_error` is always 'E', apop.m4.h:634. -/
def bootstrap (est : List R → List (Option K)) (rows : List R) (rnd : ℕ → ℕ) (iters : ℕ) (ignore : Bool) : Res (Out K) :=
  (loop est rows rnd iters ignore (2 * iters) ⟨rows, 0, 0, 0, none⟩).bind fun s =>
    if s.i = 0 ∧ s.nans = iters then .ok ⟨none, some 'E'⟩
    else if s.nans = iters then
      match s.boots with
      | none => .ub
      | some b => .ok ⟨some (b.take s.i), some 'N'⟩
    else .ok ⟨s.boots, none⟩

/-! ## Specification -/

/-- The data of draw `t`: as many rows as the data has, each the row of the number drawn. -/
def sample (rows : List R) (rnd : ℕ → ℕ) (t : ℕ) : List R := (List.range rows.length).filterMap fun j => rows[rnd (t * rows.length + j)]?

/-- The estimates of the first `n` draws. -/
def estimates (est : List R → List (Option K)) (rows : List R) (rnd : ℕ → ℕ) (n : ℕ) : List (List (Option K)) := (List.range n).map fun t => est (sample rows rnd t)

/-- Those without NaNs. -/
def good (es : List (List (Option K))) : List (List (Option K)) := es.filter fun e => e.all Option.isSome

/-- Those with. -/
def bad (es : List (List (Option K))) : List (List (Option K)) := es.filter fun e => e.any Option.isNone

/-! ## Proofs -/

theorem hasNan_iff (e : List (Option K)) : hasNan e = !(e.all Option.isSome) := by
  unfold hasNan
  induction e with
  | nil => rfl
  | cons x e ih => cases x <;> simp [ih]

theorem sample_eq (rows : List R) (rnd : ℕ → ℕ) (hr : ∀ k, rnd k < rows.length) (t : ℕ) : sample rows rnd t = (List.range rows.length).map fun j => rows[rnd (t * rows.length + j)]'(hr _) := by
  unfold sample
  rw [← List.filterMap_eq_map]
  congr 1
  funext j
  simp [List.getElem?_eq_getElem (hr _)]

theorem resample_eq (rows : List R) (rnd : ℕ → ℕ) (hr : ∀ k, rnd k < rows.length) (k : ℕ) : ∀ (m j : ℕ) (subset : List R), j + m = subset.length →
    resample rows rnd k subset j m = .ok (subset.take j ++ (List.range' j m).map fun j => rows[rnd (k + j)]'(hr _)) := by
  intro m
  induction m with
  | zero => intro j subset h; simp [resample, show j = subset.length by omega]
  | succ m ih =>
    intro j subset h
    rw [resample, rd_of_lt (hr _)]
    simp only [Res.bind]
    rw [wr_of_lt (by omega)]
    simp only
    rw [ih (j + 1) _ (by simp; omega)]
    congr 1
    rw [List.range'_succ, List.map_cons]
    have : (subset.set j (rows[rnd (k + j)]'(hr _))).take (j + 1) = subset.take j ++ [rows[rnd (k + j)]'(hr _)] := by
      rw [List.take_succ_eq_append_getElem (by simp; omega), List.take_set_of_le (le_refl j)]
      simp
    rw [this]; simp

/-- The rows drawn are the sample, whatever the subset held. -/
theorem resample_sample (rows : List R) (rnd : ℕ → ℕ) (hr : ∀ k, rnd k < rows.length) (t : ℕ) (subset : List R) (h : subset.length = rows.length) :
    resample rows rnd (t * rows.length) subset 0 rows.length = .ok (sample rows rnd t) := by
  rw [resample_eq rows rnd hr _ _ _ _ (by omega), sample_eq rows rnd hr]
  simp [List.range_eq_range']

theorem sample_length (rows : List R) (rnd : ℕ → ℕ) (hr : ∀ k, rnd k < rows.length) (t : ℕ) : (sample rows rnd t).length = rows.length := by rw [sample_eq rows rnd hr]; simp

/-- **C90 (samples).** Each draw's data are as many rows as the data's, all rows of the data, the row at each place being the one drawn for it. -/
theorem C90_sample (rows : List R) (rnd : ℕ → ℕ) (hr : ∀ k, rnd k < rows.length) (t : ℕ) :
    (sample rows rnd t).length = rows.length ∧ (∀ r ∈ sample rows rnd t, r ∈ rows) ∧ ∀ j < rows.length, (sample rows rnd t)[j]? = rows[rnd (t * rows.length + j)]? := by
  refine ⟨sample_length rows rnd hr t, ?_, ?_⟩
  · intro r h
    obtain ⟨j, _, hj⟩ := List.mem_filterMap.1 h
    exact List.mem_of_getElem? hj
  · intro j hj
    rw [sample_eq rows rnd hr]
    simp [hj, List.getElem?_eq_getElem (hr _)]

/-- The rows stored: the first `i` written. -/
def stored (iters : ℕ) (g : List (List (Option K))) : Option (List (Option (List (Option K)))) := if g = [] then none else some (g.map some ++ List.replicate (iters - g.length) none)

theorem estimates_succ (est : List R → List (Option K)) (rows : List R) (rnd : ℕ → ℕ) (n : ℕ) : estimates est rows rnd (n + 1) = estimates est rows rnd n ++ [est (sample rows rnd n)] := by
  simp [estimates, List.range_succ]

theorem good_append (a : List (List (Option K))) (e : List (Option K)) : good (a ++ [e]) = if hasNan e then good a else good a ++ [e] := by
  rw [hasNan_iff]
  cases h : e.all Option.isSome <;> simp [good, List.filter_append, h]

theorem bad_append (a : List (List (Option K))) (e : List (Option K)) : bad (a ++ [e]) = if hasNan e then bad a ++ [e] else bad a := by
  unfold hasNan
  cases h : e.any Option.isNone <;> simp [bad, List.filter_append, h]

theorem good_bad (a : List (List (Option K))) : (good a).length + (bad a).length = a.length := by
  induction a with
  | nil => rfl
  | cons e a ih =>
    have h : e.any Option.isNone = !(e.all Option.isSome) := hasNan_iff e
    have e1 : good (e :: a) = if e.all Option.isSome then e :: good a else good a := by unfold good; rw [List.filter_cons]
    have e2 : bad (e :: a) = if e.any Option.isNone then e :: bad a else bad a := by unfold bad; rw [List.filter_cons]
    rw [e1, e2, h]
    cases e.all Option.isSome <;> simp <;> omega

/-- What the loop holds after `n` draws, when NaNs are passed over. -/
structure Inv (est : List R → List (Option K)) (rows : List R) (rnd : ℕ → ℕ) (iters n : ℕ) (s : S R K) : Prop where
  sub : s.subset.length = rows.length
  draws : s.draws = n
  i : s.i = (good (estimates est rows rnd n)).length
  nans : s.nans = (bad (estimates est rows rnd n)).length
  boots : s.boots = stored iters (good (estimates est rows rnd n))

theorem stored_write (iters : ℕ) (g : List (List (Option K))) (e : List (Option K)) (h : g.length < iters) (s : S R K) (hi : s.i = g.length) (hb : s.boots = stored iters g) :
    store iters s e = .ok { s with boots := stored iters (g ++ [e]), i := g.length + 1 } := by
  have key : ∀ b : List (Option (List (Option K))), b = g.map some ++ List.replicate (iters - g.length) none → wr b g.length (some e) = .ok ((g ++ [e]).map some ++ List.replicate (iters - (g ++ [e]).length) none) := by
    rintro b rfl
    rw [wr_of_lt (by simp; omega)]
    congr 1
    obtain ⟨m, hm⟩ : ∃ m, iters - g.length = m + 1 := ⟨iters - g.length - 1, by omega⟩
    have hm' : iters - (g ++ [e]).length = m := by simp; omega
    rw [hm, hm', List.replicate_succ, List.set_append_right _ _ (by simp)]
    simp
  unfold store
  rw [hi, hb]
  by_cases hg : g = []
  · subst hg
    simp only [List.length_nil, if_true]
    have := key (List.replicate iters none) (by simp)
    simp only [List.length_nil] at this
    rw [this]
    simp [Res.bind, stored]
  · have hl : g.length ≠ 0 := by simpa using hg
    rw [if_neg hl]
    simp only [stored, hg, if_false]
    rw [key _ rfl]
    simp [Res.bind]

theorem turn_inv (est : List R → List (Option K)) (rows : List R) (rnd : ℕ → ℕ) (hr : ∀ k, rnd k < rows.length) (iters n : ℕ) (s : S R K) (h : Inv est rows rnd iters n s) (hi : s.i < iters) :
    ∃ s', turn est rows rnd iters true s = .ok s' ∧ Inv est rows rnd iters (n + 1) s' := by
  unfold turn
  rw [h.draws, resample_sample rows rnd hr n s.subset h.sub]
  simp only [Res.bind]
  have hl := sample_length rows rnd hr n
  by_cases hn : hasNan (est (sample rows rnd n)) = true
  · rw [if_pos hn]
    refine ⟨_, rfl, ⟨hl, rfl, ?_, ?_, ?_⟩⟩
    · simp only [if_true]; rw [h.i, estimates_succ, good_append, if_pos hn]
    · simp only [if_true]; rw [h.nans, estimates_succ, bad_append, if_pos hn]; simp
    · rw [h.boots, estimates_succ, good_append, if_pos hn]
  · rw [if_neg hn, stored_write iters (good (estimates est rows rnd n)) (est (sample rows rnd n)) (by rw [← h.i]; exact hi) { s with subset := sample rows rnd n, draws := n + 1 } h.i h.boots]
    refine ⟨_, rfl, ⟨hl, rfl, ?_, ?_, ?_⟩⟩
    · simp only; rw [estimates_succ, good_append, if_neg hn]; simp
    · rw [h.nans, estimates_succ, bad_append, if_neg hn]
    · rw [estimates_succ, good_append, if_neg hn]

theorem loop_inv (est : List R → List (Option K)) (rows : List R) (rnd : ℕ → ℕ) (hr : ∀ k, rnd k < rows.length) (iters : ℕ) : ∀ (f n : ℕ) (s : S R K), Inv est rows rnd iters n s →
    s.i ≤ iters → s.nans ≤ iters → 2 * iters ≤ f + n → ∃ s' N, loop est rows rnd iters true f s = .ok s' ∧ Inv est rows rnd iters N s' ∧ (s'.i = iters ∨ s'.nans = iters) ∧ s'.i ≤ iters ∧ s'.nans ≤ iters ∧ (s'.i + s'.nans = iters + iters → s = s') := by
  intro f
  induction f with
  | zero =>
    intro n s h hi hn hf
    have hgb := good_bad (estimates est rows rnd n)
    rw [← h.i, ← h.nans] at hgb
    have hlen : (estimates est rows rnd n).length = n := by simp [estimates]
    rw [loop, if_neg (by omega)]
    exact ⟨s, n, rfl, h, by omega, hi, hn, fun _ => rfl⟩
  | succ f ih =>
    intro n s h hi hn hf
    rw [loop]
    by_cases hc : s.i < iters ∧ s.nans < iters
    · rw [if_pos hc]
      obtain ⟨s1, h1, h2⟩ := turn_inv est rows rnd hr iters n s h hc.1
      have hgb := good_bad (estimates est rows rnd n)
      have hgb1 := good_bad (estimates est rows rnd (n + 1))
      have hl : (estimates est rows rnd n).length = n := by simp [estimates]
      have hl1 : (estimates est rows rnd (n + 1)).length = n + 1 := by simp [estimates]
      have hmon : s1.i = s.i + 1 ∧ s1.nans = s.nans ∨ s1.i = s.i ∧ s1.nans = s.nans + 1 := by
        rw [h2.i, h2.nans, h.i, h.nans, estimates_succ, good_append, bad_append]
        by_cases hn : hasNan (est (sample rows rnd n)) = true
        · right; simp [hn]
        · left; simp [hn]
      rw [h1]
      obtain ⟨s', N, e1, e2, e3, e4, e5, e6⟩ := ih (n + 1) s1 h2 (by omega) (by omega) (by omega)
      refine ⟨s', N, e1, e2, e3, e4, e5, fun h0 => ?_⟩
      have := e6 h0
      subst this
      omega
    · rw [if_neg hc]
      exact ⟨s, n, rfl, h, by omega, hi, hn, fun _ => rfl⟩

/-- **C90 (NaNs passed over).** For any data, estimation and random numbers, with at least one iteration: the function ends, having made some number of draws, and the rows kept are exactly the estimates without NaN among them, in order; either there are as many as iterations, and fewer with NaN, and no error, or as many with NaN as iterations, and fewer without, and an error (then without any rows if there are none). -/
theorem C90_ignore (est : List R → List (Option K)) (rows : List R) (rnd : ℕ → ℕ) (hr : ∀ k, rnd k < rows.length) (iters : ℕ) (hi : 0 < iters) :
    ∃ o N, bootstrap est rows rnd iters true = .ok o ∧
      (((good (estimates est rows rnd N)).length = iters ∧ (bad (estimates est rows rnd N)).length < iters ∧ o.err = none ∧ o.boots = some ((good (estimates est rows rnd N)).map some)) ∨
       ((bad (estimates est rows rnd N)).length = iters ∧ (good (estimates est rows rnd N)).length < iters ∧ o.err.isSome ∧
          o.boots = if good (estimates est rows rnd N) = [] then none else some ((good (estimates est rows rnd N)).map some))) := by
  have h0 : Inv est rows rnd iters 0 (⟨rows, 0, 0, 0, none⟩ : S R K) := ⟨rfl, rfl, rfl, rfl, rfl⟩
  obtain ⟨s, N, e1, e2, e3, e4, e5, e6⟩ := loop_inv est rows rnd hr iters (2 * iters) 0 _ h0 (by simp) (by simp) (by omega)
  have hne : s.i + s.nans ≠ iters + iters := by
    intro h
    have := e6 h
    rw [← this] at h
    simp only at h
    omega
  unfold bootstrap
  rw [e1]
  simp only [Res.bind]
  have hg0 : s.i = 0 ↔ good (estimates est rows rnd N) = [] := by rw [e2.i]; simp
  by_cases hn : s.nans = iters
  · by_cases hz : s.i = 0
    · rw [if_pos ⟨hz, hn⟩]
      refine ⟨_, N, rfl, Or.inr ⟨by rw [← e2.nans, hn], by rw [← e2.i]; omega, rfl, ?_⟩⟩
      rw [if_pos (hg0.1 hz)]
    · rw [if_neg (by tauto), if_pos hn, e2.boots]
      have hg : good (estimates est rows rnd N) ≠ [] := fun h => hz (hg0.2 h)
      simp only [stored, hg, if_false]
      refine ⟨_, N, rfl, Or.inr ⟨by rw [← e2.nans, hn], by rw [← e2.i]; omega, rfl, ?_⟩⟩
      simp only [e2.i]
      rw [List.take_left' (by simp), if_neg hg]
  · have hii : s.i = iters := by tauto
    rw [if_neg (by tauto), if_neg hn]
    refine ⟨_, N, rfl, Or.inl ⟨by rw [← e2.i, hii], by rw [← e2.nans]; omega, rfl, ?_⟩⟩
    have hg : good (estimates est rows rnd N) ≠ [] := fun h => by have := hg0.2 h; omega
    simp only [e2.boots, stored, hg, if_false]
    rw [← e2.i, hii]
    simp

/-- How one turn goes where there is no NaN: alike, whether or not NaNs are passed over. -/
theorem loop_ignore_eq (est : List R → List (Option K)) (rows : List R) (rnd : ℕ → ℕ) (hr : ∀ k, rnd k < rows.length) (iters : ℕ) (hc : ∀ t < iters, hasNan (est (sample rows rnd t)) = false) :
    ∀ (f n : ℕ) (s : S R K), Inv est rows rnd iters n s → s.i = n → loop est rows rnd iters false f s = loop est rows rnd iters true f s := by
  intro f
  induction f with
  | zero => intro n s _ _; rfl
  | succ f ih =>
    intro n s h hn
    rw [loop, loop]
    by_cases hcond : s.i < iters ∧ s.nans < iters
    · rw [if_pos hcond, if_pos hcond]
      obtain ⟨s', h1, h2⟩ := turn_inv est rows rnd hr iters n s h hcond.1
      have hnan := hc n (by omega)
      have e : turn est rows rnd iters false s = turn est rows rnd iters true s := by
        unfold turn
        rw [h.draws, resample_sample rows rnd hr n s.subset h.sub]
        simp [Res.bind, hnan]
      rw [e, h1]
      simp only [Res.bind]
      refine ih (n + 1) s' h2 ?_
      rw [h2.i, estimates_succ, good_append, if_neg (by simp [hnan]), List.length_append, ← h.i, hn]
      rfl
    · rw [if_neg hcond, if_neg hcond]

/-- **C90 (no NaNs).** If none of the estimates has a NaN, then, with either option, the rows kept are the estimates of the draws, one for each iteration, in order, and there is no error. -/
theorem C90_clean (est : List R → List (Option K)) (rows : List R) (rnd : ℕ → ℕ) (hr : ∀ k, rnd k < rows.length) (iters : ℕ) (hi : 0 < iters) (ignore : Bool)
    (hc : ∀ t < iters, ∀ x ∈ est (sample rows rnd t), x ≠ none) : bootstrap est rows rnd iters ignore = .ok ⟨some ((estimates est rows rnd iters).map some), none⟩ := by
  have hc' : ∀ t < iters, hasNan (est (sample rows rnd t)) = false := by
    intro t ht
    unfold hasNan
    rw [List.any_eq_false]
    intro x hx
    have := hc t ht x hx
    cases x with
    | none => exact absurd rfl this
    | some _ => simp
  have h0 : Inv est rows rnd iters 0 (⟨rows, 0, 0, 0, none⟩ : S R K) := ⟨rfl, rfl, rfl, rfl, rfl⟩
  have e : bootstrap est rows rnd iters ignore = bootstrap est rows rnd iters true := by
    cases ignore with
    | true => rfl
    | false =>
      unfold bootstrap
      rw [loop_ignore_eq est rows rnd hr iters hc' _ 0 _ h0 rfl]
  rw [e]
  have hgood : ∀ n ≤ iters, good (estimates est rows rnd n) = estimates est rows rnd n ∧ bad (estimates est rows rnd n) = [] := by
    intro n
    induction n with
    | zero => intro _; exact ⟨rfl, rfl⟩
    | succ n ih =>
      intro hn
      obtain ⟨a, b⟩ := ih (by omega)
      rw [estimates_succ, good_append, bad_append, hc' n (by omega), a, b]
      simp
  have hlen : ∀ n, (estimates est rows rnd n).length = n := fun n => by simp [estimates]
  have hpre : ∀ N, iters ≤ N → ∃ l, estimates est rows rnd N = estimates est rows rnd iters ++ l := by
    intro N hN
    obtain ⟨d, rfl⟩ := Nat.exists_eq_add_of_le hN
    refine ⟨(List.range' iters d).map fun t => est (sample rows rnd t), ?_⟩
    rw [estimates, estimates, ← List.map_append, List.range_eq_range', List.range_eq_range', show iters = 0 + 1 * iters by omega, ← List.range'_append]
    simp
  obtain ⟨o, N, h1, h2⟩ := C90_ignore est rows rnd hr iters hi
  have hga : ∀ a b : List (List (Option K)), good (a ++ b) = good a ++ good b := by intro a b; simp [good]
  have hba : ∀ a b : List (List (Option K)), bad (a ++ b) = bad a ++ bad b := by intro a b; simp [bad]
  rw [h1]
  rcases h2 with ⟨g, b, er, bo⟩ | ⟨g, b, er, bo⟩
  · have hge : iters ≤ N := by
      have := good_bad (estimates est rows rnd N)
      rw [hlen] at this; omega
    obtain ⟨l, hl⟩ := hpre N hge
    have hG : good (estimates est rows rnd N) = estimates est rows rnd iters := by
      rw [hl, hga, (hgood iters le_rfl).1]
      have : (good l).length = 0 := by
        have hg := g
        rw [hl, hga, (hgood iters le_rfl).1, List.length_append, hlen] at hg
        omega
      rw [List.length_eq_zero_iff.1 this, List.append_nil]
    rw [hG] at bo
    cases o
    simp only at er bo
    rw [er, bo]
  · exfalso
    rcases Nat.lt_or_ge N iters with hlt | hge
    · rw [(hgood N hlt.le).2] at g
      simp at g; omega
    · obtain ⟨l, hl⟩ := hpre N hge
      rw [hl, hga, (hgood iters le_rfl).1, List.length_append, hlen] at b
      omega

/-- **C90 (NaNs kept) fails.** Documented: with NaNs not passed over, "I will write that set of statistics to the list, NaN and all". But a row with a NaN is never written: here the second of two estimates is NaN, and the second row is left as it was allocated. -/
theorem C90_kept_refuted : bootstrap (fun l : List ℕ => [l.head?.bind fun x => if x = 0 then none else some x]) [1, 0] (fun k => k / 2) 2 false = .ok ⟨some [some [some 1], none], none⟩ := by decide +kernel

/-- If the first estimate has a NaN, and a later one has not, the matrix is used though never allocated. -/
theorem C90_first_refuted : bootstrap (fun l : List ℕ => [l.head?.bind fun x => if x = 0 then none else some x]) [0, 1] (fun k => k / 2) 2 false = .ub := by decide +kernel

/-- The documented error for nothing but NaNs is 'N'; it is 'E'. -/
theorem C90_error_refuted : bootstrap (fun _ : List ℕ => [(none : Option ℕ)]) [0, 1] (fun k => k % 2) 2 true = .ok ⟨none, some 'E'⟩ := by decide +kernel

/-- NaNs passed over: the first and third estimates are kept. -/
example : bootstrap (fun l : List ℕ => [l.head?.bind fun x => if x = 0 then none else some x]) [3, 0, 7] (fun k => k / 3 % 3) 2 true = .ok ⟨some [some [some 3], some [some 7]], none⟩ := by decide +kernel

end Apop.Boot
