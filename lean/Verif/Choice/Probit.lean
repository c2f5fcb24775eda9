import Verif.Base.C
import Verif.Choice.Phi
import Mathlib.Analysis.SpecialFunctions.Log.Deriv
import Mathlib.Analysis.Calculus.Deriv.Add
import Mathlib.Analysis.Calculus.Deriv.Mul

/-! # C132, C133: the probit model's log likelihood and score (model/apop_probit.c:83-154)

Exact arithmetic over the reals, except that the value of the Normal CDF may be replaced by anything in [0,1] (as underflow does). -/

namespace Apop.Choice

open Apop Real

variable {k : ℕ}

/-- A row of Xβ for one column of parameters, from `apop_dot` (C85). -/
def lin (x β : Fin k → ℝ) : ℝ := ∑ j, x j * β j

/-- Lines 85-86 and 145-146 of model/apop_probit.c. -/
noncomputable def clampP (n : ℝ) : ℝ :=
  if (if n ≠ 0 then n else 1e-10) < 1 then (if n ≠ 0 then n else 1e-10) else 1 - 1e-10

/-- `biprobit_ll_row`, model/apop_probit.c:83-88; `cdf` is `gsl_cdf_gaussian_P(·, 1)`. -/
noncomputable def biRow (cdf : ℝ → ℝ) (y s : ℝ) : ℝ := if y ≠ 0 then log (1 - clampP (cdf (-s))) else log (clampP (cdf (-s)))

/-- `biprobit_log_likelihood`, model/apop_probit.c:91-98: the sum over the rows (C49). -/
noncomputable def biLl (cdf : ℝ → ℝ) (β : Fin k → ℝ) (rows : List (ℝ × (Fin k → ℝ))) : ℝ := (rows.map fun r => biRow cdf r.1 (lin r.2 β)).sum

/-- `deriv_base`, model/apop_probit.c:143-149. -/
noncomputable def derivBase (cdf pdf : ℝ → ℝ) (y betax : ℝ) : ℝ :=
  if y ≠ 0 then pdf (-betax) / (1 - clampP (cdf (-betax))) else -pdf (-betax) / clampP (cdf (-betax))

/-- The loop of `probit_dlog_likelihood` over the rows, model/apop_probit.c:141-152. -/
noncomputable def scoreLoop (cdf pdf : ℝ → ℝ) (β : Fin k → ℝ) : List (ℝ × (Fin k → ℝ)) → (Fin k → ℝ) → (Fin k → ℝ)
  | [], g => g
  | (y, x) :: l, g => scoreLoop cdf pdf β l fun j => g j + x j * derivBase cdf pdf y (lin x β)

/-- `probit_dlog_likelihood` for two categories, model/apop_probit.c:130-154. -/
noncomputable def biScore (cdf pdf : ℝ → ℝ) (β : Fin k → ℝ) (rows : List (ℝ × (Fin k → ℝ))) : Fin k → ℝ := scoreLoop cdf pdf β rows fun _ => 0

/-! ### C132 -/

theorem clampP_id {n : ℝ} (h0 : 0 < n) (h1 : n < 1) : clampP n = n := by simp [clampP, h0.ne', h1]

theorem clampP_mem {n : ℝ} (h0 : 0 ≤ n) : 0 < clampP n ∧ clampP n < 1 := by
  unfold clampP
  rcases h0.eq_or_lt with h | h
  · subst h; norm_num
  · simp only [ne_eq, h.ne', not_false_eq_true, if_true]
    split
    · next h1 => exact ⟨h, h1⟩
    · norm_num

/-- C132: the log likelihood is the log of the product over the observations of Φ(xβ) where the outcome isn't zero, 1−Φ(xβ) where it is. -/
theorem C132_ll (β : Fin k → ℝ) (rows : List (ℝ × (Fin k → ℝ))) :
    biLl Phi β rows = log ((rows.map fun r => if r.1 ≠ 0 then Phi (lin r.2 β) else 1 - Phi (lin r.2 β)).prod) := by
  unfold biLl
  induction rows with
  | nil => simp
  | cons r l ih =>
    have hne : ∀ l : List (ℝ × (Fin k → ℝ)), (l.map fun r => if r.1 ≠ 0 then Phi (lin r.2 β) else 1 - Phi (lin r.2 β)).prod ≠ 0 := by
      intro l
      apply List.prod_ne_zero
      intro h
      obtain ⟨r, -, hr⟩ := List.mem_map.mp h
      have := Phi_pos (lin r.2 β); have := Phi_lt_one (lin r.2 β)
      split at hr <;> linarith
    rw [List.map_cons, List.sum_cons, ih, List.map_cons, List.prod_cons, log_mul _ (hne l)]
    · congr 1
      unfold biRow
      rw [clampP_id (Phi_pos _) (Phi_lt_one _), Phi_neg]
      split <;> simp
    · have := Phi_pos (lin r.2 β); have := Phi_lt_one (lin r.2 β)
      split <;> linarith

/-- C132: whatever rounding does to the CDF, each observation adds the log of a number strictly between zero and one: never minus infinity or NaN. -/
theorem C132_finite (cdf : ℝ → ℝ) (h : ∀ x, 0 ≤ cdf x) (y s : ℝ) : ∃ p, 0 < p ∧ p < 1 ∧ biRow cdf y s = log p := by
  obtain ⟨h1, h2⟩ := clampP_mem (h (-s))
  unfold biRow
  split
  · exact ⟨_, by linarith, by linarith, rfl⟩
  · exact ⟨_, h1, h2, rfl⟩

theorem lin_update (x β : Fin k → ℝ) (j : Fin k) (t : ℝ) : lin x (Function.update β j t) = lin x β + x j * (t - β j) := by
  have h : ∀ b : Fin k → ℝ, lin x b = x j * b j + ∑ i ∈ Finset.univ.erase j, x i * b i := fun b => by
    unfold lin; exact (Finset.add_sum_erase _ (fun i => x i * b i) (Finset.mem_univ j)).symm
  rw [h, h β]
  have e : ∑ i ∈ Finset.univ.erase j, x i * Function.update β j t i = ∑ i ∈ Finset.univ.erase j, x i * β i := by
    apply Finset.sum_congr rfl
    intro i hi
    rw [Function.update_of_ne (Finset.ne_of_mem_erase hi)]
  rw [e, Function.update_self]; ring

theorem biRow_deriv (y : ℝ) (x β : Fin k → ℝ) (j : Fin k) :
    HasDerivAt (fun t => biRow Phi y (lin x (Function.update β j t))) (x j * derivBase Phi phi y (lin x β)) (β j) := by
  have hl : HasDerivAt (fun t => lin x (Function.update β j t)) (x j) (β j) := by
    simp only [lin_update]
    have := (((hasDerivAt_id (β j)).sub_const (β j)).const_mul (x j)).const_add (lin x β)
    simpa using this
  have hat : lin x (Function.update β j (β j)) = lin x β := by rw [lin_update]; ring
  have hP : HasDerivAt (fun t => Phi (-(lin x (Function.update β j t)))) (phi (-(lin x β)) * -(x j)) (β j) := by
    have h1 : HasDerivAt Phi (phi (-(lin x β))) (-(lin x (Function.update β j (β j)))) := by rw [hat]; exact Phi_deriv _
    exact h1.comp (β j) hl.neg
  unfold biRow derivBase
  simp only [clampP_id (Phi_pos _) (Phi_lt_one _)]
  split
  · have hne : 1 - Phi (-(lin x (Function.update β j (β j)))) ≠ 0 := by have := Phi_lt_one (-(lin x (Function.update β j (β j)))); linarith
    have := (hP.const_sub 1).log hne
    rw [hat] at this
    convert this using 1; ring
  · have hne : Phi (-(lin x (Function.update β j (β j)))) ≠ 0 := (Phi_pos _).ne'
    have := hP.log hne
    rw [hat] at this
    convert this using 1; ring

theorem scoreLoop_eq (cdf pdf : ℝ → ℝ) (β : Fin k → ℝ) (rows : List (ℝ × (Fin k → ℝ))) : ∀ g j,
    scoreLoop cdf pdf β rows g j = g j + (rows.map fun r => r.2 j * derivBase cdf pdf r.1 (lin r.2 β)).sum := by
  induction rows with
  | nil => intro g j; simp [scoreLoop]
  | cons r l ih => intro g j; rw [scoreLoop, ih]; simp; ring

/-- C132: the score is the gradient of the log likelihood. -/
theorem C132_score (β : Fin k → ℝ) (rows : List (ℝ × (Fin k → ℝ))) (j : Fin k) :
    HasDerivAt (fun t => biLl Phi (Function.update β j t) rows) (biScore Phi phi β rows j) (β j) := by
  unfold biScore
  rw [scoreLoop_eq, zero_add]
  unfold biLl
  induction rows with
  | nil => simpa using hasDerivAt_const (β j) (0 : ℝ)
  | cons r l ih =>
    simp only [List.map_cons, List.sum_cons]
    exact (biRow_deriv r.1 r.2 β j).add ih

/-- With no effect (β = 0), each observation of either outcome has probability one half. -/
example : biLl Phi (fun _ : Fin 2 => 0) [(1, ![1, 3]), (0, ![1, 4])] = log (1 / 4) := by
  rw [C132_ll]
  have h : Phi 0 = 1 / 2 := by have := Phi_neg 0; simp at this; linarith
  congr 1
  simp [lin, h]; norm_num

/-! ### C133: three or more categories -/

/-- The indicator `unordered`, model/apop_probit.c:101, mapped over the outcomes. -/
noncomputable def indicator (v : ℝ) (rows : List (ℝ × (Fin k → ℝ))) : List (ℝ × (Fin k → ℝ)) := rows.map fun r => (if r.1 = v then 1 else 0, r.2)

/-- The category table that `get_category_table` makes for `working_data` the first time (C83: the distinct values, sorted; here among 0 and 1). -/
noncomputable def workTable (rows : List (ℝ × (Fin k → ℝ))) : List ℝ := [0, 1].filter fun v => decide (v ∈ rows.map Prod.fst)

/-- The table used in the recursive call: the one on the static `working_data` if there is one already. -/
noncomputable def useTable (st : Option (List ℝ)) (rows : List (ℝ × (Fin k → ℝ))) : List ℝ := st.getD (workTable rows)

/-- The loop of `multiprobit_log_likelihood`, model/apop_probit.c:119-126, for at least two columns of parameters. `st` is the category table
of the static `working_data`. `Apop_cv(p->parameters, 1)` is column 1 whatever `i` is. In the recursive call, a table of
other than two categories leads to column 1 of a one-column matrix: undefined. -/
noncomputable def multiLoop (cdf : ℝ → ℝ) (vals : List ℝ) (cols : List (Fin k → ℝ)) (rows : List (ℝ × (Fin k → ℝ))) : Nat → Nat → Option (List ℝ) → ℝ → Res (ℝ × Option (List ℝ))
  | 0, _, st, ll => .ok (ll, st)
  | f + 1, i, st, ll =>
    (rd vals i).bind fun v => (rd cols 1).bind fun β =>
      if (useTable st (indicator v rows)).length = 2 then multiLoop cdf vals cols rows f (i + 1) (some (useTable st (indicator v rows))) (ll + biLl cdf β (indicator v rows)) else .ub

/-- `multiprobit_log_likelihood`, model/apop_probit.c:104-128, for other than two categories. -/
noncomputable def multiLl (cdf : ℝ → ℝ) (vals : List ℝ) (st : Option (List ℝ)) (cols : List (Fin k → ℝ)) (rows : List (ℝ × (Fin k → ℝ))) : Res (ℝ × Option (List ℝ)) :=
  multiLoop cdf vals cols rows cols.length 0 st 0

/-- The table of `working_data` is right: not made yet and the first category chosen by some but not all, or zero and one. -/
def TableOk (st : Option (List ℝ)) (vals : List ℝ) (rows : List (ℝ × (Fin k → ℝ))) : Prop :=
  st = some [0, 1] ∨ (st = none ∧ ∃ v, vals[0]? = some v ∧ v ∈ rows.map Prod.fst ∧ ∃ w ∈ rows.map Prod.fst, w ≠ v)

theorem useTable_ok {st : Option (List ℝ)} {vals : List ℝ} {rows : List (ℝ × (Fin k → ℝ))} {v : ℝ} (h : TableOk st vals rows) (hv : vals[0]? = some v) :
    useTable st (indicator v rows) = [0, 1] := by
  rcases h with rfl | ⟨rfl, v', hv', hm, w, hw, hne⟩
  · rfl
  · rw [hv] at hv'; injection hv' with hv'; subst hv'
    have h1 : (1 : ℝ) ∈ (indicator v rows).map Prod.fst := by
      obtain ⟨r, hr, rfl⟩ := List.mem_map.mp hm
      exact List.mem_map.mpr ⟨(1, r.2), List.mem_map.mpr ⟨r, hr, by simp⟩, rfl⟩
    have h0 : (0 : ℝ) ∈ (indicator v rows).map Prod.fst := by
      obtain ⟨r, hr, rfl⟩ := List.mem_map.mp hw
      exact List.mem_map.mpr ⟨(0, r.2), List.mem_map.mpr ⟨r, hr, by simp [hne]⟩, rfl⟩
    simp only [useTable, Option.getD_none, workTable]
    rw [List.filter_cons_of_pos (by simpa using h0), List.filter_cons_of_pos (by simpa using h1), List.filter_nil]

theorem multiLoop_eq (cdf : ℝ → ℝ) (vals : List ℝ) (cols : List (Fin k → ℝ)) (rows : List (ℝ × (Fin k → ℝ))) (β : Fin k → ℝ) (hb : cols[1]? = some β) :
    ∀ f i ll, i + f ≤ vals.length → multiLoop cdf vals cols rows f i (some [0, 1]) ll =
      .ok (ll + (((vals.drop i).take f).map fun v => biLl cdf β (indicator v rows)).sum, some [0, 1]) := by
  intro f
  induction f with
  | zero => intro i ll h; simp [multiLoop]
  | succ f ih =>
    intro i ll h
    have hi : i < vals.length := by omega
    rw [multiLoop]
    simp only [rd, List.getElem?_eq_getElem hi, hb, Res.bind, useTable, Option.getD_some, List.length_cons, List.length_nil, if_true]
    rw [ih (i + 1) _ (by omega), List.drop_eq_getElem_cons hi, List.take_succ_cons, List.map_cons, List.sum_cons]
    congr 2; ring

/-- C133 (partial): with J ≥ 3 categories the log likelihood is a sum of J−1 binary probits, one for each category but the last against all the others.
Missing: each with its own column of parameters — all use the second column (see `C133_own_columns_refuted`). -/
theorem C133_sum_of_binary_partial (cdf : ℝ → ℝ) (vals : List ℝ) (st : Option (List ℝ)) (cols : List (Fin k → ℝ)) (rows : List (ℝ × (Fin k → ℝ))) (hlen : vals.length = cols.length + 1)
    (β : Fin k → ℝ) (hb : cols[1]? = some β) (ht : TableOk st vals rows) :
    multiLl cdf vals st cols rows = .ok ((vals.dropLast.map fun v => biLl cdf β (indicator v rows)).sum, some [0, 1]) := by
  unfold multiLl
  have hc : 1 < cols.length := (List.getElem?_eq_some_iff.mp hb).1
  obtain ⟨n, hn⟩ : ∃ n, cols.length = n + 1 := ⟨cols.length - 1, by omega⟩
  have h0 : 0 < vals.length := by omega
  have hv : vals[0]? = some vals[0] := List.getElem?_eq_getElem h0
  rw [hn, multiLoop]
  simp only [rd, hv, hb, Res.bind]
  rw [useTable_ok ht hv]
  simp only [List.length_cons, List.length_nil, if_true]
  rw [multiLoop_eq cdf vals cols rows β hb n 1 _ (by omega), List.dropLast_eq_take, hlen, hn]
  congr 2
  match vals, h0 with
  | a :: l, _ => simp

/-- C133 (refuted): that the likelihood depends on every column of the parameters: only the second is ever looked at. -/
theorem C133_ignored_columns_refuted (cdf : ℝ → ℝ) (vals : List ℝ) (st : Option (List ℝ)) (cols cols' : List (Fin k → ℝ)) (rows : List (ℝ × (Fin k → ℝ))) (hlen : cols.length = cols'.length) (h1 : cols[1]? = cols'[1]?) :
    multiLl cdf vals st cols rows = multiLl cdf vals st cols' rows := by
  unfold multiLl
  rw [hlen]
  have : ∀ f i st ll, multiLoop cdf vals cols rows f i st ll = multiLoop cdf vals cols' rows f i st ll := by
    intro f
    induction f with
    | zero => intros; rfl
    | succ f ih => intro i st ll; simp only [multiLoop, rd, h1, ih]
  exact this _ _ _ _

/-- What the comment above the function promises: for each column of parameters, a probit of that column on the indicator of its option. -/
noncomputable def ownColumns (cdf : ℝ → ℝ) (vals : List ℝ) (cols : List (Fin k → ℝ)) (rows : List (ℝ × (Fin k → ℝ))) : ℝ :=
  (List.zipWith (fun v β => biLl cdf β (indicator v rows)) vals.tail cols).sum

/-- C133 (refuted): that each category's probit uses that category's column of parameters: three observations, three categories, one constant regressor. -/
theorem C133_own_columns_refuted : ∃ (rows : List (ℝ × (Fin 1 → ℝ))) (cols : List (Fin 1 → ℝ)) (ll : ℝ),
    multiLl Phi [0, 1, 2] none cols rows = .ok (ll, some [0, 1]) ∧ ll ≠ ownColumns Phi [0, 1, 2] cols rows := by
  have key : ∀ a : ℝ, ∃ ll, multiLl (k := 1) Phi [0, 1, 2] none [fun _ => a, fun _ => 0] [(0, fun _ => 1), (1, fun _ => 1), (2, fun _ => (1 : ℝ))] = .ok (ll, some [0, 1]) ∧ ll = 6 * log (1 / 2) := by
    intro a
    refine ⟨_, C133_sum_of_binary_partial Phi [0, 1, 2] none _ _ rfl (fun _ => 0) rfl (Or.inr ⟨rfl, 0, rfl, by simp, 1, by simp, by norm_num⟩), ?_⟩
    have h : Phi 0 = 1 / 2 := by have := Phi_neg 0; simp at this; linarith
    have hr : ∀ y, biRow Phi y 0 = log (1 / 2) := by
      intro y; unfold biRow; simp only [neg_zero, h]; rw [clampP_id (by norm_num) (by norm_num)]; norm_num
    simp [biLl, indicator, lin, hr]; ring
  obtain ⟨ll, e, hll⟩ := key 1
  refine ⟨_, _, ll, e, ?_⟩
  rw [hll]
  have h : Phi 0 = 1 / 2 := by have := Phi_neg 0; simp at this; linarith
  have hr : ∀ y, biRow Phi y 0 = log (1 / 2) := by
    intro y; unfold biRow; simp only [neg_zero, h]; rw [clampP_id (by norm_num) (by norm_num)]; norm_num
  have h1 : 1 / 2 < Phi 1 := by rw [← h]; exact Phi_lt (by norm_num)
  have hP1 := Phi_lt_one 1
  have e1 : biRow Phi 1 1 = log (Phi 1) := by
    unfold biRow; rw [clampP_id (Phi_pos _) (Phi_lt_one _), Phi_neg]; simp
  have e0 : biRow Phi 0 1 = log (1 - Phi 1) := by
    unfold biRow; rw [clampP_id (Phi_pos _) (Phi_lt_one _), Phi_neg]; simp
  have hval : ownColumns (k := 1) Phi [0, 1, 2] [fun _ => 1, fun _ => 0] [(0, fun _ => 1), (1, fun _ => 1), (2, fun _ => (1 : ℝ))] = log (Phi 1) + 2 * log (1 - Phi 1) + 3 * log (1 / 2) := by
    simp [ownColumns, biLl, indicator, lin, hr, e0, e1]; ring
  rw [hval]
  intro hcon
  have h3 : log (Phi 1 * (1 - Phi 1) ^ 2) = log ((1 / 2) ^ 3) := by
    rw [log_mul (by linarith [Phi_pos 1]) (by have : (0:ℝ) < 1 - Phi 1 := by linarith
                                              positivity), log_pow, log_pow]; push_cast; linarith
  have h4 := log_injOn_pos (by simp; have : (0:ℝ) < 1 - Phi 1 := by linarith
                               have := Phi_pos 1; positivity) (by simp) h3
  have h5 : Phi 1 ^ 2 - 3 / 2 * Phi 1 + 1 / 4 < 0 := by nlinarith
  nlinarith [mul_pos (sub_pos.mpr h1) (neg_pos.mpr h5)]

/-- C133 (refuted): that the likelihood can always be calculated: if in the first data set nobody chose the first category in the table, the calculation is undefined. -/
theorem C133_unchosen_refuted (cdf : ℝ → ℝ) (v : ℝ) (vals : List ℝ) (cols : List (Fin k → ℝ)) (hc : 1 < cols.length) (rows : List (ℝ × (Fin k → ℝ))) (h : ∀ r ∈ rows, r.1 ≠ v) :
    multiLl cdf (v :: vals) none cols rows = .ub := by
  obtain ⟨n, hn⟩ : ∃ n, cols.length = n + 1 := ⟨cols.length - 1, by omega⟩
  unfold multiLl
  rw [hn, multiLoop]
  have hno : ¬ (1 : ℝ) ∈ (indicator v rows).map Prod.fst := by
    intro hm
    obtain ⟨q, hq, hq1⟩ := List.mem_map.mp hm
    obtain ⟨r, hr, rfl⟩ := List.mem_map.mp hq
    simp [h r hr] at hq1
  have hlen : (workTable (indicator v rows)).length ≠ 2 := by
    unfold workTable
    intro hl
    have h1 : decide ((1 : ℝ) ∈ (indicator v rows).map Prod.fst) = false := by simpa using hno
    rw [List.filter_cons, List.filter_cons, h1] at hl
    split at hl <;> simp at hl
  simp [rd, List.getElem?_eq_getElem hc, Res.bind, useTable, hlen]

end Apop.Choice
