import Verif.Base.C
import Verif.Stats.CovMatrix
import Mathlib.Algebra.BigOperators.Fin
import Mathlib.Tactic.Linarith
import Mathlib.Tactic.FieldSimp

/-! # C89: the jackknife

A data set is its list of rows; the estimation is any function of them giving the packed parameters (it is taken not to change its data). -/

namespace Apop.Jack
open Apop.Stats
variable {R : Type}

/-! ## The models -/

/-- One pseudovalue, apop_bootstrap.m4.c:69-72, from the overall parameters (times `n` already) and those of the subset. -/
noncomputable def pseudo (n : ℕ) (scaled estp : List ℝ) : List ℝ := List.zipWith (fun o e => o - e * ((n : ℝ) - 1)) scaled estp

/-- Row `i` of the data copied over row `i` of the subset, apop_bootstrap.m4.c:66; not in the first turn, where `i` is -1. (`turn` is `i + 1`.) -/
def advance (rows : List R) (subset : List R) : ℕ → Res (List R)
  | 0 => .ok subset
  | i + 1 => (rd rows i).bind fun r => wr subset i r

/-- The loop, apop_bootstrap.m4.c:64-76, from the given turn, for the number of turns given; the rows of `array_of_boots` in order. -/
noncomputable def loop (est : List R → List ℝ) (rows : List R) (scaled : List ℝ) : List R → ℕ → ℕ → Res (List (List ℝ))
  | _, _, 0 => .ok []
  | subset, turn, m + 1 => (advance rows subset turn).bind fun s =>
      (loop est rows scaled s (turn + 1) m).bind fun rest => .ok (pseudo rows.length scaled (est s) :: rest)

/-- `apop_jackknife_cov`, apop_bootstrap.m4.c:48-89; `given` are the parameters of a model that was estimated already. With fewer than two rows the subset has no rows, which no view can be: undefined. -/
noncomputable def jackknife (junk : Cells) (est : List R → List ℝ) (given : Option (List ℝ)) (rows : List R) : Res Cells :=
  let overall := given.getD (est rows)
  if rows.length < 2 then .ub
  else (loop est rows (overall.map (· * (rows.length : ℝ))) (rows.drop 1) 0 rows.length).bind fun boots =>
    .ok fun a b => (covMatrix junk boots none overall.length a b).map (· * (1 / ((rows.length : ℝ) - 1)))

/-! ## Specification -/

/-- Parameter `a` estimated without row `t`. -/
def without (est : List R → List ℝ) (rows : List R) (t a : ℕ) : ℝ := (est (rows.eraseIdx t)).getD a 0

/-- Its mean over the rows left out. -/
noncomputable def meanWithout (est : List R → List ℝ) (rows : List R) (a : ℕ) : ℝ := (∑ t ∈ Finset.range rows.length, without est rows t a) / rows.length

/-! ## Proofs -/

theorem eraseIdx_set (rows : List R) (i : ℕ) (h : i + 1 < rows.length) : (rows.eraseIdx i).set i rows[i] = rows.eraseIdx (i + 1) := by
  apply List.ext_getElem
  · simp [List.length_eraseIdx, h, show i < rows.length by omega]
  · intro j h1 h2
    rw [List.getElem_set, List.getElem_eraseIdx, List.getElem_eraseIdx]
    by_cases hij : i = j
    · subst hij; simp
    · rw [if_neg hij]
      by_cases hj : j < i
      · rw [dif_pos hj, dif_pos (by omega)]
      · rw [dif_neg hj, dif_neg (by omega)]

theorem advance_eq (rows : List R) (turn : ℕ) (h : turn < rows.length) : advance rows (rows.eraseIdx (turn - 1)) turn = .ok (rows.eraseIdx turn) := by
  cases turn with
  | zero => rfl
  | succ i =>
    have hi : i < rows.length := by omega
    rw [advance, rd_of_lt hi]
    simp only [Res.bind, Nat.add_sub_cancel]
    rw [wr_of_lt (by rw [List.length_eraseIdx, if_pos hi]; omega), eraseIdx_set rows i h]

theorem loop_eq (est : List R → List ℝ) (rows : List R) (scaled : List ℝ) : ∀ (m turn : ℕ), turn + m = rows.length →
    loop est rows scaled (rows.eraseIdx (turn - 1)) turn m = .ok ((List.range' turn m).map fun t => pseudo rows.length scaled (est (rows.eraseIdx t))) := by
  intro m
  induction m with
  | zero => intro turn _; rfl
  | succ m ih =>
    intro turn h
    have := ih (turn + 1) (by omega)
    rw [Nat.add_sub_cancel] at this
    rw [loop, advance_eq rows turn (by omega)]
    simp only [Res.bind, this, List.range'_succ, List.map_cons]

/-- **C89 (samples).** The rows kept are, for each row of the data in order, n times the overall estimate less n - 1 times the estimate from all rows but that one. -/
theorem C89_pseudovalues (est : List R → List ℝ) (rows : List R) (scaled : List ℝ) :
    loop est rows scaled (rows.drop 1) 0 rows.length = .ok ((List.range rows.length).map fun t => pseudo rows.length scaled (est (rows.eraseIdx t))) := by
  have := loop_eq est rows scaled rows.length 0 (by omega)
  rw [List.range_eq_range', ← this]
  cases rows <;> rfl

theorem pseudo_getD (n : ℕ) (s e : List ℝ) (a : ℕ) (hs : a < s.length) (he : a < e.length) : (pseudo n s e).getD a 0 = s.getD a 0 - e.getD a 0 * ((n : ℝ) - 1) := by
  unfold pseudo
  simp [List.getD_eq_getElem?_getD, hs, he]

theorem sum_range_map (f : ℕ → ℝ) (n : ℕ) : ((List.range n).map f).sum = ∑ t ∈ Finset.range n, f t := by
  induction n with
  | zero => simp
  | succ n ih => rw [List.range_succ, List.map_append, List.sum_append, ih, Finset.sum_range_succ]; simp

theorem cov_affine (n : ℕ) (hn : 2 ≤ n) (u v : ℕ → ℝ) (c d : ℝ) :
    vectorCov (some ((List.range n).map fun t => c - u t * ((n : ℝ) - 1))) (some ((List.range n).map fun t => d - v t * ((n : ℝ) - 1))) none =
      some (((n : ℝ) - 1) * ∑ t ∈ Finset.range n, (u t - (∑ t ∈ Finset.range n, u t) / n) * (v t - (∑ t ∈ Finset.range n, v t) / n)) := by
  have hn0 : (n : ℝ) ≠ 0 := by positivity
  have hn1 : (n : ℝ) - 1 ≠ 0 := by
    have : (2 : ℝ) ≤ n := by exact_mod_cast hn
    linarith
  have hs : ∀ (c : ℝ) (u : ℕ → ℝ), (((List.range n).map fun t => c - u t * ((n : ℝ) - 1)).sum / n) = c - (∑ t ∈ Finset.range n, u t) / n * ((n : ℝ) - 1) := by
    intro c u
    rw [sum_range_map, Finset.sum_sub_distrib, ← Finset.sum_mul, Finset.sum_const, Finset.card_range, nsmul_eq_mul]
    field_simp
  rw [C52_cov _ _ (by simp) (by simpa using hn)]
  simp only [List.length_map, List.length_range, hs]
  rw [List.zipWith_map, List.zipWith_self, sum_range_map, Option.some.injEq, div_eq_iff hn1, Finset.mul_sum, Finset.sum_mul]
  exact Finset.sum_congr rfl fun t _ => by ring

/-- **C89.** For any data of two rows or more and any estimation, given overall parameters or none: the (a, b) element is the sum over the rows of the products of the deviations, from their means, of the two parameters as estimated without that row. The overall parameters do not matter. -/
theorem C89_value (junk : Cells) (est : List R → List ℝ) (given : Option (List ℝ)) (rows : List R) (p : ℕ) (hn : 2 ≤ rows.length) (hp : ∀ l, (est l).length = p) (hg : ∀ g ∈ given, g.length = p) :
    ∃ M, jackknife junk est given rows = .ok M ∧ ∀ a < p, ∀ b < p,
      M a b = some (∑ t ∈ Finset.range rows.length, (without est rows t a - meanWithout est rows a) * (without est rows t b - meanWithout est rows b)) := by
  have hov : (given.getD (est rows)).length = p := by
    cases given with
    | none => exact hp rows
    | some g => exact hg g rfl
  unfold jackknife
  rw [if_neg (by omega), C89_pseudovalues]
  refine ⟨_, rfl, fun a ha b hb => ?_⟩
  rw [hov, C60_cov_cells _ _ _ _ _ _ ha hb]
  have hcol : ∀ a < p, colOf ((List.range rows.length).map fun t => pseudo rows.length ((given.getD (est rows)).map (· * (rows.length : ℝ))) (est (rows.eraseIdx t))) a =
      (List.range rows.length).map fun t => ((given.getD (est rows)).map (· * (rows.length : ℝ))).getD a 0 - without est rows t a * ((rows.length : ℝ) - 1) := by
    intro a ha
    unfold colOf
    rw [List.map_map]
    refine List.map_congr_left fun t _ => ?_
    exact pseudo_getD _ _ _ a (by simpa [hov] using ha) (by rw [hp]; exact ha)
  rw [hcol a ha, hcol b hb, cov_affine _ hn, Option.map_some, Option.some.injEq]
  have hn1 : (rows.length : ℝ) - 1 ≠ 0 := by
    have : (2 : ℝ) ≤ rows.length := by exact_mod_cast hn
    linarith
  unfold meanWithout
  field_simp

/-- The sum of a list without one element. -/
theorem sum_eraseIdx (l : List ℝ) (t : ℕ) (h : t < l.length) : (l.eraseIdx t).sum = l.sum - l[t] := by
  induction l generalizing t with
  | nil => simp at h
  | cons x l ih =>
    cases t with
    | zero => simp
    | succ t => simp [ih t (by simpa using h)]; ring

theorem sum_range_getElem (l : List ℝ) : ∑ t ∈ Finset.range l.length, l.getD t 0 = l.sum := by
  rw [← sum_range_map]
  congr 1
  apply List.ext_getElem
  · simp
  · intro i h1 h2; simp [List.getElem?_eq_getElem h2]

/-- **C89 (the mean).** For the mean of n numbers the jackknife variance is Σ(x - mean)²/(n - 1)²: the sample variance over n - 1. -/
theorem C89_mean (junk : Cells) (x : List ℝ) (hn : 2 ≤ x.length) : ∃ M s2, jackknife junk (fun l => [l.sum / l.length]) none x = .ok M ∧ vectorVar (some x) none = some s2 ∧ M 0 0 = some (s2 / ((x.length : ℝ) - 1)) := by
  obtain ⟨M, hM, hv⟩ := C89_value junk (fun l : List ℝ => [l.sum / l.length]) none x 1 hn (fun l => rfl) (by simp)
  refine ⟨M, _, hM, C52_var x hn, ?_⟩
  rw [hv 0 (by omega) 0 (by omega), Option.some.injEq]
  have h2 : (2 : ℝ) ≤ x.length := by exact_mod_cast hn
  have hn1 : (x.length : ℝ) - 1 ≠ 0 := by linarith
  have hn0 : (x.length : ℝ) ≠ 0 := by linarith
  have hw : ∀ t ∈ Finset.range x.length, without (fun l : List ℝ => [l.sum / l.length]) x t 0 = (x.sum - x.getD t 0) / ((x.length : ℝ) - 1) := by
    intro t ht
    have ht' := Finset.mem_range.1 ht
    unfold without
    simp only [List.getD_cons_zero]
    rw [sum_eraseIdx x t ht', List.length_eraseIdx, if_pos ht', Nat.cast_sub (by omega)]
    simp [List.getD_eq_getElem?_getD, ht']
  have hm : meanWithout (fun l : List ℝ => [l.sum / l.length]) x 0 = x.sum / x.length := by
    unfold meanWithout
    rw [Finset.sum_congr rfl hw, ← Finset.sum_div, Finset.sum_sub_distrib, sum_range_getElem, Finset.sum_const, Finset.card_range, nsmul_eq_mul]
    field_simp
  rw [hm]
  have e : (x.map fun y => (y - x.sum / x.length) ^ 2).sum = ∑ t ∈ Finset.range x.length, (x.getD t 0 - x.sum / x.length) ^ 2 := by
    rw [← sum_range_map]
    congr 1
    apply List.ext_getElem
    · simp
    · intro i h1 h2
      have h3 : i < x.length := by simpa using h1
      simp [List.getElem?_eq_getElem h3]
  rw [e, Finset.sum_div, Finset.sum_div]
  refine Finset.sum_congr rfl fun t ht => ?_
  rw [hw t ht]
  field_simp
  ring

/-- **C89 (scale) fails**: the usual jackknife variance, that of the pseudovalues over n, for the mean is the sample variance over n; this is n/(n - 1) times too much (unless all elements are the same). -/
theorem C89_scale_refuted (junk : Cells) (x : List ℝ) (hn : 2 ≤ x.length) : ∃ M s2, jackknife junk (fun l => [l.sum / l.length]) none x = .ok M ∧ vectorVar (some x) none = some s2 ∧ (M 0 0 = some (s2 / (x.length : ℝ)) ↔ s2 = 0) := by
  obtain ⟨M, s2, hM, hs, h0⟩ := C89_mean junk x hn
  refine ⟨M, s2, hM, hs, ?_⟩
  have h2 : (2 : ℝ) ≤ x.length := by exact_mod_cast hn
  have hn1 : (x.length : ℝ) - 1 ≠ 0 := by linarith
  have hn0 : (x.length : ℝ) ≠ 0 := by linarith
  rw [h0, Option.some.injEq, div_eq_div_iff hn1 hn0]
  constructor
  · intro h; linarith
  · intro h; rw [h]; ring

/-- **C89 (variances).** No variance is negative, and the matrix is symmetric. -/
theorem C89_nonneg (junk : Cells) (est : List R → List ℝ) (given : Option (List ℝ)) (rows : List R) (p : ℕ) (hn : 2 ≤ rows.length) (hp : ∀ l, (est l).length = p) (hg : ∀ g ∈ given, g.length = p) (M : Cells) (h : jackknife junk est given rows = .ok M) :
    ∀ a < p, (∃ v, M a a = some v ∧ 0 ≤ v) ∧ ∀ b < p, M a b = M b a := by
  obtain ⟨M', hM, hv⟩ := C89_value junk est given rows p hn hp hg
  rw [h] at hM
  cases hM
  intro a ha
  refine ⟨⟨_, hv a ha a ha, Finset.sum_nonneg fun t _ => mul_self_nonneg _⟩, fun b hb => ?_⟩
  rw [hv a ha b hb, hv b hb a ha]
  simp only [mul_comm]

/-- The hypotheses are met: the data 1, 2, 6 and the mean; without the first row 4, without the second 7/2, without the third 3/2. -/
example : (List.range 3).map (fun t => without (fun l : List ℝ => [l.sum / l.length]) [1, 2, 6] t 0) = [4, 7 / 2, 3 / 2] := by
  norm_num [without, List.range_succ]

end Apop.Jack
