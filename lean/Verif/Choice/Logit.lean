import Verif.Base.C
import Mathlib.Analysis.SpecialFunctions.Log.Basic
import Mathlib.Analysis.SpecialFunctions.Exp
import Mathlib.Tactic.Linarith
import Mathlib.Tactic.Positivity
import Mathlib.Tactic.FieldSimp
import Mathlib.Tactic.Ring
import Mathlib.Tactic.NormNum
import Mathlib.Tactic.IntervalCases

/-! # C130, C131: the logit model's log likelihood and predictions (model/apop_probit.c:164-242)

Exact arithmetic over the reals; whether `expl(-max)` overflows is an arbitrary predicate. -/

namespace Apop.Choice

open Apop Real

/-- The loop of `find_index`, model/apop_probit.c:206-210: `m[i]` is read before `i<max` is checked. -/
noncomputable def findGo (v : ℝ) (m : List ℝ) : Nat → Nat → Res Nat
  | fuel, i => (rd m i).bind fun x =>
    if v ≠ x then (match fuel with | 0 => .ok i | f + 1 => findGo v m f (i + 1)) else .ok i

/-- `find_index`, model/apop_probit.c:206-210. -/
noncomputable def findIndex (v : ℝ) (m : List ℝ) (max : Nat) : Res Nat := findGo v m max 0

/-- `gsl_vector_max`: reads element 0 of its (nonempty) vector. -/
noncomputable def vecMax : List ℝ → Res ℝ
  | [] => .ub
  | a :: l => .ok (l.foldl max a)

/-- `num` at model/apop_probit.c:217. -/
noncomputable def numerator (row : List ℝ) (index : Nat) : Res ℝ := if index = 0 then .ok 0 else rd row (index - 1)

/-- What is subtracted, model/apop_probit.c:228, given the row after lines 224-225. -/
noncomputable def logDenom (finite : ℝ → Bool) (mx : ℝ) (row : List ℝ) : ℝ :=
  mx + (if finite (exp (-mx)) then log (row.sum + exp (-mx)) else -mx)

/-- `one_logit_row`, model/apop_probit.c:212-229. `y` is the observation's vector element, `row` its row of Xβ. -/
noncomputable def oneLogitRow (finite : ℝ → Bool) (table : List ℝ) (y : ℝ) (row : List ℝ) : Res ℝ :=
  (findIndex y table row.length).bind fun index =>
  (numerator row index).bind fun num =>
  (vecMax row).bind fun mx =>
  .ok (num - logDenom finite mx (row.map fun x => exp (x + -mx)))

/-- A dot product of two vectors of the same length, `gsl_blas_ddot`. -/
def dotp (x b : List ℝ) : ℝ := (List.zipWith (· * ·) x b).sum

/-- A row of `apop_dot(d, p->parameters)` (C85), with the parameters given by their columns. -/
def xbeta (cols : List (List ℝ)) (x : List ℝ) : List ℝ := cols.map (dotp x)

/-- `apop_map_sum` over the rows of the data set, model/apop_probit.c:231-242; that the sum doesn't depend on threads is C49. -/
noncomputable def logitLl (finite : ℝ → Bool) (table : List ℝ) (cols : List (List ℝ)) : List (ℝ × List ℝ) → Res ℝ
  | [] => .ok 0
  | (y, x) :: l => (oneLogitRow finite table y (xbeta cols x)).bind fun a => (logitLl finite table cols l).bind fun b => .ok (a + b)

/-! ### Specification -/

/-- The score of each choice: zero for the first (the numeraire), then xβ₁, xβ₂, …. -/
def scores (row : List ℝ) : List ℝ := 0 :: row

/-- The documented likelihood of choosing item `c`: e^(xβ_c) / Σ e^(xβ_i). -/
noncomputable def choiceProb (row : List ℝ) (c : Nat) : ℝ := exp ((scores row)[c]?.getD 0) / ((scores row).map exp).sum

/-! ### Lemmas -/

theorem findGo_found (v : ℝ) (m : List ℝ) (c : Nat) (hc : m[c]? = some v) (hd : m.Nodup) : ∀ fuel i, i ≤ c → c ≤ i + fuel → findGo v m fuel i = .ok c := by
  intro fuel
  induction fuel with
  | zero =>
    intro i h1 h2
    have : i = c := by omega
    subst this
    unfold findGo; simp [rd, hc, Res.bind]
  | succ f ih =>
    intro i h1 h2
    by_cases hi : i = c
    · subst hi; unfold findGo; simp [rd, hc, Res.bind]
    · have hlt : i < m.length := by
        have := (List.getElem?_eq_some_iff.mp hc).1; omega
      have hne : v ≠ m[i] := by
        intro he
        have hcl := (List.getElem?_eq_some_iff.mp hc).1
        have h3 : m[c] = m[i] := by rw [← he]; exact (List.getElem?_eq_some_iff.mp hc).2
        exact hi ((List.Nodup.getElem_inj_iff hd).mp h3).symm
      unfold findGo
      simp only [rd, List.getElem?_eq_getElem hlt, Res.bind, if_pos hne]
      exact ih (i + 1) (by omega) (by omega)

theorem findGo_absent (v : ℝ) (m : List ℝ) (hv : v ∉ m) : ∀ fuel i, i + fuel < m.length → findGo v m fuel i = .ok (i + fuel) := by
  intro fuel
  induction fuel with
  | zero =>
    intro i h
    unfold findGo
    simp [rd, List.getElem?_eq_getElem (show i < m.length by omega), Res.bind]
  | succ f ih =>
    intro i h
    have hlt : i < m.length := by omega
    have hne : v ≠ m[i] := fun he => hv (he ▸ List.getElem_mem hlt)
    unfold findGo
    simp only [rd, List.getElem?_eq_getElem hlt, Res.bind, if_pos hne]
    rw [ih (i + 1) (by omega)]; congr 1; omega

theorem sum_exp_shift (l : List ℝ) (mx : ℝ) : (l.map fun x => exp (x + -mx)).sum = exp (-mx) * (l.map exp).sum := by
  induction l with
  | nil => simp
  | cons a l ih => rw [List.map_cons, List.sum_cons, ih, List.map_cons, List.sum_cons, exp_add]; ring

theorem sum_exp_nonneg (l : List ℝ) : 0 ≤ (l.map exp).sum := List.sum_nonneg (by simp; intro x _; positivity)

theorem denom_pos (row : List ℝ) : 0 < ((scores row).map exp).sum := by
  have := sum_exp_nonneg row
  simp [scores]; linarith

theorem logDenom_eq (finite : ℝ → Bool) (mx : ℝ) (row : List ℝ) (hf : finite (exp (-mx)) = true) :
    logDenom finite mx (row.map fun x => exp (x + -mx)) = log ((scores row).map exp).sum := by
  unfold logDenom
  rw [if_pos hf, sum_exp_shift]
  have h := sum_exp_nonneg row
  have e : exp (-mx) * (row.map exp).sum + exp (-mx) = exp (-mx) * ((scores row).map exp).sum := by simp [scores]; ring
  rw [e, log_mul (exp_pos _).ne' (denom_pos row).ne', log_exp]; ring

theorem numerator_eq (row : List ℝ) (c : Nat) (hc : c ≤ row.length) : numerator row c = .ok ((scores row)[c]?.getD 0) := by
  unfold numerator scores
  cases c with
  | zero => simp
  | succ c => simp [rd, List.getElem?_eq_getElem (show c < row.length by omega)]

theorem log_choiceProb (row : List ℝ) (c : Nat) : log (choiceProb row c) = (scores row)[c]?.getD 0 - log ((scores row).map exp).sum := by
  unfold choiceProb
  rw [log_div (exp_pos _).ne' (denom_pos row).ne', log_exp]

theorem le_foldl_max (l : List ℝ) : ∀ a, a ≤ l.foldl max a ∧ ∀ x ∈ l, x ≤ l.foldl max a := by
  induction l with
  | nil => intro a; simp
  | cons b l ih =>
    intro a
    obtain ⟨h1, h2⟩ := ih (max a b)
    refine ⟨le_trans (le_max_left a b) h1, ?_⟩
    intro x hx
    rcases List.mem_cons.mp hx with rfl | hx
    · exact le_trans (le_max_right a x) h1
    · exact h2 x hx

theorem vecMax_spec (l : List ℝ) (hl : l ≠ []) : ∃ mx, vecMax l = .ok mx ∧ ∀ x ∈ l, x ≤ mx := by
  cases l with
  | nil => exact absurd rfl hl
  | cons a l =>
    refine ⟨_, rfl, ?_⟩
    intro x hx
    rcases List.mem_cons.mp hx with rfl | hx
    · exact (le_foldl_max l x).1
    · exact (le_foldl_max l a).2 x hx

/-! ### C130 -/

/-- C130: when nothing overflows, the log likelihood of an observation that chose category `c` is exactly the log of the documented choice probability. -/
theorem C130_row (finite : ℝ → Bool) (hf : ∀ x, finite x = true) (table row : List ℝ) (hr : row ≠ []) (hlen : table.length = row.length + 1) (hd : table.Nodup)
    (y : ℝ) (c : Nat) (hc : table[c]? = some y) : oneLogitRow finite table y row = .ok (log (choiceProb row c)) := by
  have hcl : c < table.length := (List.getElem?_eq_some_iff.mp hc).1
  obtain ⟨mx, hm, -⟩ := vecMax_spec row hr
  unfold oneLogitRow findIndex
  rw [findGo_found y table c hc hd row.length 0 (by omega) (by omega)]
  simp only [Res.bind]
  rw [numerator_eq row c (by omega), hm]
  simp only
  rw [logDenom_eq finite mx row (hf _), log_choiceProb]

/-- C130: the probabilities of the choices are positive and sum to one, so the log likelihood is never positive. -/
theorem C130_distribution (row : List ℝ) :
    (∀ c, 0 < choiceProb row c) ∧ ((List.range (row.length + 1)).map (choiceProb row)).sum = 1 ∧ ∀ c ≤ row.length, log (choiceProb row c) ≤ 0 := by
  have hpos : ∀ c, 0 < choiceProb row c := fun c => div_pos (exp_pos _) (denom_pos row)
  have hsum : ((List.range (row.length + 1)).map (choiceProb row)).sum = 1 := by
    have e : (List.range (row.length + 1)).map (choiceProb row) = ((scores row).map exp).map fun x => x / ((scores row).map exp).sum := by
      apply List.ext_getElem
      · simp [scores]
      · intro i h1 h2
        have hi : i < (scores row).length := by simpa [scores] using h1
        simp only [List.getElem_map, List.getElem_range, choiceProb]
        rw [List.getElem?_eq_getElem hi]; rfl
    rw [e]
    have : ∀ (l : List ℝ) (s : ℝ), (l.map fun x => x / s).sum = l.sum / s := by
      intro l s
      induction l with
      | nil => simp
      | cons a l ih => simp only [List.map_cons, List.sum_cons, ih]; ring
    rw [this, div_self (denom_pos row).ne']
  refine ⟨hpos, hsum, ?_⟩
  intro c hc
  apply log_nonpos (hpos c).le
  rw [← hsum]
  apply List.single_le_sum
  · intro x hx
    obtain ⟨k, -, rfl⟩ := List.mem_map.mp hx
    exact (hpos k).le
  · exact List.mem_map.mpr ⟨c, List.mem_range.mpr (by omega), rfl⟩

/-- C130: the log likelihood of a data set is the log of the product of the probabilities of the choices made. -/
theorem C130_sample (finite : ℝ → Bool) (hf : ∀ x, finite x = true) (table : List ℝ) (cols : List (List ℝ)) (hr : cols ≠ []) (hlen : table.length = cols.length + 1) (hd : table.Nodup) :
    ∀ (choice : List Nat) (ys : List ℝ) (xs : List (List ℝ)), ys.length = choice.length → xs.length = choice.length →
    (∀ (i c : Nat) (y : ℝ), choice[i]? = some c → ys[i]? = some y → table[c]? = some y) →
    logitLl finite table cols (ys.zip xs) = .ok (log ((List.zipWith (fun x c => choiceProb (xbeta cols x) c) xs choice).prod)) := by
  intro choice
  induction choice with
  | nil => intro ys xs h1 h2 _; have : ys = [] := List.length_eq_zero_iff.mp h1; subst this; simp [logitLl]
  | cons c cs ih =>
    intro ys xs h1 h2 h
    match ys, xs with
    | y :: ys, x :: xs =>
      simp only [List.zip_cons_cons, List.zipWith_cons_cons, List.prod_cons]
      have hrow : xbeta cols x ≠ [] := by intro he; apply hr; simpa [xbeta] using he
      have h0 := h 0 c y (by simp) (by simp)
      rw [logitLl, C130_row finite hf table (xbeta cols x) hrow (by simp [xbeta, hlen]) hd y c h0]
      rw [ih ys xs (by simpa using h1) (by simpa using h2) (fun i c' y' hc hy => h (i + 1) c' y' (by simpa using hc) (by simpa using hy))]
      have hprod : ∀ (xs : List (List ℝ)) (cs : List Nat), 0 < (List.zipWith (fun x c => choiceProb (xbeta cols x) c) xs cs).prod := by
        intro xs
        induction xs with
        | nil => simp
        | cons a xs ih2 =>
          intro cs
          cases cs with
          | nil => simp
          | cons b cs =>
            simp only [List.zipWith_cons_cons, List.prod_cons]
            exact mul_pos ((C130_distribution _).1 _) (ih2 cs)
      simp only [Res.bind]
      rw [log_mul ((C130_distribution _).1 _).ne' (hprod xs cs).ne']

/-- C130: when `exp(-max)` overflows (all scores very negative), the value returned is within (number of choices − 1)·e^max of the true log probability — less than (number of choices − 1)/HUGE. -/
theorem C130_overflow (finite : ℝ → Bool) (table row : List ℝ) (hr : row ≠ []) (hlen : table.length = row.length + 1) (hd : table.Nodup)
    (y : ℝ) (c : Nat) (hc : table[c]? = some y) (mx : ℝ) (hmx : vecMax row = .ok mx) (hf : finite (exp (-mx)) = false) :
    ∃ r, oneLogitRow finite table y row = .ok r ∧ log (choiceProb row c) ≤ r ∧ r - log (choiceProb row c) ≤ row.length * exp mx := by
  have hcl : c < table.length := (List.getElem?_eq_some_iff.mp hc).1
  refine ⟨(scores row)[c]?.getD 0, ?_, ?_, ?_⟩
  · unfold oneLogitRow findIndex
    rw [findGo_found y table c hc hd row.length 0 (by omega) (by omega)]
    simp only [Res.bind]
    rw [numerator_eq row c (by omega), hmx]
    simp [logDenom, hf]
  · rw [log_choiceProb]
    have h1 : 1 ≤ ((scores row).map exp).sum := by
      have := sum_exp_nonneg row; simp [scores]; linarith
    have := log_nonneg h1
    linarith
  · rw [log_choiceProb]
    obtain ⟨mx', hm, hle⟩ := vecMax_spec row hr
    have : mx' = mx := by rw [hm] at hmx; injection hmx
    subst this
    have h1 : (row.map exp).sum ≤ row.length * exp mx' := by
      have : ∀ l : List ℝ, (∀ x ∈ l, x ≤ mx') → (l.map exp).sum ≤ l.length * exp mx' := by
        intro l
        induction l with
        | nil => simp
        | cons a l ih =>
          intro h
          have h2 := ih fun x hx => h x (List.mem_cons_of_mem _ hx)
          have h3 := exp_le_exp.mpr (h a (by simp))
          simp only [List.map_cons, List.sum_cons, List.length_cons]; push_cast; linarith
      exact this row hle
    have h2 : log ((scores row).map exp).sum ≤ (row.map exp).sum := by
      have := log_le_sub_one_of_pos (denom_pos row)
      simp [scores] at this ⊢; linarith
    linarith

/-- C130 (refuted): that an outcome which isn't one of the categories is reported; it is counted as the last category. -/
theorem C130_unknown_outcome_refuted (finite : ℝ → Bool) (hf : ∀ x, finite x = true) (table row : List ℝ) (hr : row ≠ []) (hlen : table.length = row.length + 1) (y : ℝ) (hy : y ∉ table) :
    oneLogitRow finite table y row = .ok (log (choiceProb row row.length)) := by
  obtain ⟨mx, hm, -⟩ := vecMax_spec row hr
  unfold oneLogitRow findIndex
  rw [findGo_absent y table hy row.length 0 (by omega)]
  simp only [Res.bind, Nat.zero_add]
  rw [numerator_eq row row.length le_rfl, hm]
  simp only
  rw [logDenom_eq finite mx row (hf _), log_choiceProb]

/-- Three categories, the middle one chosen with scores 0, log 2, log 3: probability 2/6. -/
example : oneLogitRow (fun _ => true) [0, 1, 2] 1 [log 2, log 3] = .ok (log (1 / 3)) := by
  rw [C130_row (fun _ => true) (fun _ => rfl) [0, 1, 2] [log 2, log 3] (by simp) rfl (by simp) 1 1 rfl]
  congr 2
  simp [choiceProb, scores, exp_log]; norm_num

/-- Data of two rows for which the sample theorem applies. -/
example : ∃ v, logitLl (fun _ => true) [0, 1, 2] [[1, 0], [0, 1]] ([2, 0].zip [[1, 5], [1, 7]]) = .ok v ∧ v < 0 := by
  refine ⟨_, C130_sample (fun _ => true) (fun _ => rfl) [0, 1, 2] [[1, 0], [0, 1]] (by simp) rfl (by simp) [2, 0] [2, 0] [[1, 5], [1, 7]] rfl rfl ?_, ?_⟩
  · intro i c y h1 h2
    match i with
    | 0 => simp at h1 h2; subst h1; subst h2; rfl
    | 1 => simp at h1 h2; subst h1; subst h2; rfl
    | i + 2 => simp at h1
  · apply log_neg
    · simp; exact mul_pos ((C130_distribution _).1 _) ((C130_distribution _).1 _)
    · have e1 : xbeta [[1, 0], [0, 1]] [1, 5] = [1, 5] := by simp [xbeta, dotp]
      have e2 : xbeta [[1, 0], [0, 1]] [1, 7] = [1, 7] := by simp [xbeta, dotp]
      have lt : ∀ (a b : ℝ) (c : Nat), c ≤ 2 → choiceProb [a, b] c < 1 := by
        intro a b c hc
        have h := (C130_distribution [a, b]).2.1
        have p := (C130_distribution [a, b]).1
        simp [List.range_succ] at h
        have := p 0; have := p 1; have := p 2
        interval_cases c <;> linarith
      simp only [List.zipWith_cons_cons, List.zipWith_nil_right, List.prod_cons, List.prod_nil, mul_one, e1, e2]
      exact mul_lt_one_of_nonneg_of_lt_one_left ((C130_distribution _).1 _).le (lt 1 5 2 (by norm_num)) (lt 1 7 0 (by norm_num)).le

/-! ### C131: predictions -/

/-- `oneterm` at model/apop_probit.c:178-184. -/
def oneterm (cols : List (List ℝ)) (x : List ℝ) (j : Nat) : Res ℝ := if j = 0 then .ok 0 else (rd cols (j - 1)).bind fun b => .ok (dotp x b)

/-- What is written to column `j` of the output row, model/apop_probit.c:180,184. -/
noncomputable def cellOf (j : Nat) (t : ℝ) : ℝ := if j = 0 then 1 else exp t

/-- The loop over choices, model/apop_probit.c:177-190: the row written so far, `bestindex`, `bestscore`. -/
noncomputable def predLoop (cols : List (List ℝ)) (x : List ℝ) : Nat → Nat → List ℝ → Nat → ℝ → Res (List ℝ × Nat)
  | 0, _, row, best, _ => .ok (row, best)
  | f + 1, j, row, best, score => (oneterm cols x j).bind fun t =>
    predLoop cols x f (j + 1) (row ++ [cellOf j t]) (if t > score then j else best) (if t > score then t else score)

/-- `gsl_vector_scale(outrow, 1/total)`, model/apop_probit.c:191-192. -/
noncomputable def normalised (row : List ℝ) : List ℝ := row.map fun v => v * (1 / row.sum)

/-- One row of `multilogit_expected`, model/apop_probit.c:166-199: the output's matrix row and its vector element. Names are left out. -/
noncomputable def predictRow (cols : List (List ℝ)) (x : List ℝ) : Res (List ℝ × Nat) :=
  (predLoop cols x (cols.length + 1) 0 [] 0 0).bind fun p => .ok (normalised p.1, p.2)

theorem oneterm_eq (cols : List (List ℝ)) (x : List ℝ) (j : Nat) (hj : j ≤ cols.length) : oneterm cols x j = .ok ((scores (xbeta cols x))[j]?.getD 0) := by
  unfold oneterm scores xbeta
  cases j with
  | zero => simp
  | succ j =>
    have h : j < cols.length := by omega
    simp [rd, List.getElem?_eq_getElem h, Res.bind]

/-- `best` is the first of the largest of the first `j` scores. -/
def FirstBest (s : List ℝ) (j best : Nat) : Prop :=
  best < j ∧ (∀ c < j, s[c]?.getD 0 ≤ s[best]?.getD 0) ∧ ∀ c < best, s[c]?.getD 0 < s[best]?.getD 0

theorem firstBest_step (s : List ℝ) (j best : Nat) (h : FirstBest s j best) :
    FirstBest s (j + 1) (if s[j]?.getD 0 > s[best]?.getD 0 then j else best) := by
  obtain ⟨h1, h2, h3⟩ := h
  split
  · next hgt =>
    refine ⟨by omega, ?_, ?_⟩
    · intro c hc
      rcases Nat.lt_succ_iff_lt_or_eq.mp hc with hc | rfl
      · exact ((h2 c hc).trans_lt hgt).le
      · exact le_rfl
    · intro c hc; exact (h2 c hc).trans_lt hgt
  · next hgt =>
    refine ⟨by omega, ?_, h3⟩
    intro c hc
    rcases Nat.lt_succ_iff_lt_or_eq.mp hc with hc | rfl
    · exact h2 c hc
    · exact not_lt.mp hgt

theorem predLoop_eq (cols : List (List ℝ)) (x : List ℝ) : ∀ f j row best, j + f = cols.length + 1 → 0 < j → FirstBest (scores (xbeta cols x)) j best →
    ∃ best', predLoop cols x f j row best ((scores (xbeta cols x))[best]?.getD 0) =
      .ok (row ++ (List.range f).map (fun i => exp ((scores (xbeta cols x))[j + i]?.getD 0)), best') ∧ FirstBest (scores (xbeta cols x)) (cols.length + 1) best' := by
  intro f
  induction f with
  | zero => intro j row best h hj hb; have : j = cols.length + 1 := by omega
            subst this; exact ⟨best, by simp [predLoop], hb⟩
  | succ f ih =>
    intro j row best h hj hb
    obtain ⟨b', e, hb'⟩ := ih (j + 1) (row ++ [exp ((scores (xbeta cols x))[j]?.getD 0)]) _ (by omega) (by omega) (firstBest_step _ j best hb)
    refine ⟨b', ?_, hb'⟩
    rw [predLoop, oneterm_eq cols x j (by omega)]
    simp only [Res.bind]
    have hcell : cellOf j ((scores (xbeta cols x))[j]?.getD 0) = exp ((scores (xbeta cols x))[j]?.getD 0) := by simp [cellOf, hj.ne']
    rw [hcell]
    have hs : (if (scores (xbeta cols x))[j]?.getD 0 > (scores (xbeta cols x))[best]?.getD 0 then (scores (xbeta cols x))[j]?.getD 0 else (scores (xbeta cols x))[best]?.getD 0) =
        (scores (xbeta cols x))[if (scores (xbeta cols x))[j]?.getD 0 > (scores (xbeta cols x))[best]?.getD 0 then j else best]?.getD 0 := by split <;> rfl
    rw [hs, e]
    congr 2
    rw [List.range_succ_eq_map, List.map_cons, List.map_map]
    simp [Function.comp_def, Nat.add_assoc, Nat.add_comm 1]

/-- C131: each row of the prediction holds the documented probabilities of the choices, and its vector element is the first of the most likely choices. -/
theorem C131_row (cols : List (List ℝ)) (x : List ℝ) :
    ∃ best, predictRow cols x = .ok ((List.range (cols.length + 1)).map (choiceProb (xbeta cols x)), best) ∧ best ≤ cols.length ∧
      (∀ c ≤ cols.length, choiceProb (xbeta cols x) c ≤ choiceProb (xbeta cols x) best) ∧ ∀ c < best, choiceProb (xbeta cols x) c < choiceProb (xbeta cols x) best := by
  have h0 : FirstBest (scores (xbeta cols x)) 1 0 := by
    refine ⟨by omega, ?_, by intro c hc; omega⟩
    intro c hc
    have : c = 0 := by omega
    subst this; exact le_rfl
  obtain ⟨best, e, hb1, hb2, hb3⟩ := predLoop_eq cols x cols.length 1 [1] 0 (by omega) (by omega) h0
  have hd := denom_pos (xbeta cols x)
  refine ⟨best, ?_, by omega, ?_, ?_⟩
  · have e0 : predLoop cols x (cols.length + 1) 0 [] 0 0 = predLoop cols x cols.length 1 [1] 0 ((scores (xbeta cols x))[0]?.getD 0) := by
      rw [predLoop]; simp [oneterm, Res.bind, cellOf, scores]
    unfold predictRow
    rw [e0, e]
    simp only [Res.bind]
    congr 2
    have hrow : [1] ++ (List.range cols.length).map (fun i => exp ((scores (xbeta cols x))[1 + i]?.getD 0)) = (scores (xbeta cols x)).map exp := by
      apply List.ext_getElem
      · simp [scores, xbeta]
      · intro i h1 h2
        cases i with
        | zero => simp [scores]
        | succ i =>
          have hi : i < cols.length := by simpa [Nat.add_comm] using h1
          simp [scores, Nat.add_comm 1, xbeta, hi]
    rw [hrow]
    unfold normalised
    apply List.ext_getElem
    · simp [scores, xbeta]
    · intro i h1 h2
      have hi : i < (scores (xbeta cols x)).length := by simpa using h1
      simp only [List.getElem_map, List.getElem_range, choiceProb]
      rw [List.getElem?_eq_getElem hi]
      simp [div_eq_mul_inv]
  · intro c hc
    exact div_le_div_of_nonneg_right (exp_le_exp.mpr (hb2 c (by omega))) hd.le
  · intro c hc
    exact div_lt_div_of_pos_right (exp_lt_exp.mpr (hb3 c hc)) hd

/-- C131: the predicted probabilities of each row are positive and sum to one. -/
theorem C131_distribution (cols : List (List ℝ)) (x : List ℝ) (row : List ℝ) (best : Nat) (h : predictRow cols x = .ok (row, best)) :
    row.length = cols.length + 1 ∧ (∀ v ∈ row, 0 < v) ∧ row.sum = 1 := by
  obtain ⟨b, e, -⟩ := C131_row cols x
  rw [e] at h
  injection h with h; injection h with h1 h2; subst h1
  refine ⟨by simp, ?_, ?_⟩
  · intro v hv; obtain ⟨k, -, rfl⟩ := List.mem_map.mp hv; exact (C130_distribution _).1 _
  · have := (C130_distribution (xbeta cols x)).2.1
    simpa [xbeta] using this

/-- C131: predictions and likelihood agree: the log likelihood of an observation is the log of the probability predicted for the choice it made. -/
theorem C131_agrees (finite : ℝ → Bool) (hf : ∀ z, finite z = true) (table : List ℝ) (cols : List (List ℝ)) (hr : cols ≠ []) (hlen : table.length = cols.length + 1) (hd : table.Nodup)
    (x : List ℝ) (y : ℝ) (c : Nat) (hc : table[c]? = some y) (row : List ℝ) (best : Nat) (h : predictRow cols x = .ok (row, best)) :
    ∃ p, row[c]? = some p ∧ oneLogitRow finite table y (xbeta cols x) = .ok (log p) := by
  obtain ⟨b, e, -⟩ := C131_row cols x
  rw [e] at h
  injection h with h; injection h with h1 h2; subst h1
  have hcl : c < table.length := (List.getElem?_eq_some_iff.mp hc).1
  refine ⟨choiceProb (xbeta cols x) c, ?_, ?_⟩
  · rw [List.getElem?_map, List.getElem?_range (by omega)]; rfl
  · exact C130_row finite hf table _ (by intro he; apply hr; simpa [xbeta] using he) (by simp [xbeta, hlen]) hd y c hc

/-- Scores 0, 1, 1: category 1 is predicted, the first of the two best. -/
example : ∃ row, predictRow [[1, 0], [0, 1]] [1, 1] = .ok (row, 1) := by
  obtain ⟨b, e, h1, h2, h3⟩ := C131_row [[1, 0], [0, 1]] [1, 1]
  refine ⟨(List.range 3).map (choiceProb (xbeta [[1, 0], [0, 1]] [1, 1])), e.trans ?_⟩
  have hx : xbeta [[1, 0], [0, 1]] [1, 1] = [1, 1] := by simp [xbeta, dotp]
  rw [hx] at h2 h3
  have hlt : choiceProb [1, 1] 0 < choiceProb [1, 1] 1 := div_lt_div_of_pos_right (by simp [scores]) (denom_pos _)
  have heq : choiceProb [1, 1] 2 = choiceProb [1, 1] 1 := by simp [choiceProb, scores]
  have : b = 1 := by
    simp at h1
    interval_cases b
    · exact absurd (h2 1 (by simp)) (not_le.mpr hlt)
    · rfl
    · exact absurd (h3 1 (by omega)) (by rw [heq]; exact lt_irrefl _)
  rw [this]; rfl

end Apop.Choice
