import Mathlib.Data.Real.Basic
import Mathlib.Algebra.BigOperators.Fin
import Mathlib.Algebra.BigOperators.Field
import Mathlib.Algebra.Order.BigOperators.Group.Finset
import Mathlib.Algebra.Order.Archimedean.Real.Basic
import Mathlib.Algebra.Order.Floor.Ring
import Mathlib.Tactic.Linarith
import Mathlib.Tactic.FieldSimp
import Mathlib.Tactic.Ring
import Mathlib.Tactic.Positivity
import Mathlib.Tactic.FinCases
import Mathlib.Tactic.NormNum

/-! # C100: the χ² test of independence -/

namespace Apop.Indep

/-! ## The model (exact arithmetic; the total is within `int`) -/

/-- A table. -/
abbrev Table (r c : ℕ) := Fin r → Fin c → ℝ

variable {r c : ℕ}

/-- `apop_matrix_sum`, `apop_vector_sum` of a row and of a column (C51). -/
noncomputable def total (d : Table r c) : ℝ := ∑ i, ∑ j, d i j
noncomputable def rowSum (d : Table r c) (i : Fin r) : ℝ := ∑ j, d i j
noncomputable def colSum (d : Table r c) (j : Fin c) : ℝ := ∑ i, d i j

/-- A double made an `int`, apop_tests.m4.c:236. -/
noncomputable def trunc (x : ℝ) : ℤ := by classical exact if 0 ≤ x then ⌊x⌋ else ⌈x⌉

/-- Division; `none`: no number. -/
noncomputable def div? (a b : ℝ) : Option ℝ := by classical exact if b = 0 then none else some (a / b)

/-- `one_chi_sq`, apop_tests.m4.c:211-217. -/
noncomputable def oneChiSq (d : Table r c) (i : Fin r) (j : Fin c) (n : ℤ) : Option ℝ :=
  (div? (rowSum d i) n).bind fun re =>
  (div? (colSum d j) n).bind fun ce =>
  div? ((d i j - n * re * ce) ^ 2) (n * re * ce)

/-- The sum of the elements, `none` if one is. -/
noncomputable def sum? : List (Option ℝ) → Option ℝ
  | [] => some 0
  | x :: xs => x.bind fun x => (sum? xs).map (x + ·)

/-- `df`, apop_tests.m4.c:232-234. -/
def df (r c : ℕ) : ℤ := if r = 1 then (c : ℤ) - 1 else if c = 1 then r else ((r : ℤ) - 1) * (c - 1)

/-- What is returned: statistic (`none`: NaN or infinite), degrees of freedom, p value. -/
structure Out where
  stat : Option ℝ
  df : ℤ
  p : Option ℝ

/-- `apop_test_anova_independence`, apop_tests.m4.c:228-246, for a table with rows and columns; `none` is NULL. `Q` is `gsl_cdf_chisq_Q`. -/
noncomputable def test (Q : ℝ → ℤ → ℝ) (d : Table r c) : Option Out :=
  if df r c = 0 then none
  else
    let stat := sum? ((List.finRange r).flatMap fun i => (List.finRange c).map fun j => oneChiSq d i j (trunc (total d)))
    some ⟨stat, df r c, stat.map fun s => Q s (df r c)⟩

/-! ## Specification -/

/-- The count expected of a cell, if rows and columns are independent. -/
noncomputable def expected (d : Table r c) (i : Fin r) (j : Fin c) : ℝ := rowSum d i * colSum d j / total d

/-- Pearson's statistic. -/
noncomputable def chi (d : Table r c) : ℝ := ∑ i, ∑ j, (d i j - expected d i j) ^ 2 / expected d i j

/-- A table of nonnegative numbers, with something in each row and in each column, and a whole total. -/
structure Ok (d : Table r c) : Prop where
  nonneg : ∀ i j, 0 ≤ d i j
  row : ∀ i, 0 < rowSum d i
  col : ∀ j, 0 < colSum d j
  whole : ∃ N : ℕ, 0 < N ∧ total d = N

/-! ## Proofs -/

theorem sum?_some : ∀ (l : List ℝ), sum? (l.map some) = some l.sum
  | [] => rfl
  | x :: l => by simp [sum?, sum?_some l]

theorem sum?_none : ∀ (l : List (Option ℝ)), none ∈ l → sum? l = none
  | [], h => by simp at h
  | x :: l, h => by
    simp only [List.mem_cons] at h
    rcases h with rfl | h
    · rfl
    · cases x with
      | none => rfl
      | some x => simp [sum?, sum?_none l h]

theorem sum_flatMap' {α : Type} (f : α → List ℝ) : ∀ (l : List α), (l.flatMap f).sum = (l.map fun a => (f a).sum).sum
  | [] => rfl
  | a :: l => by simp [List.flatMap_cons, sum_flatMap' f l]

theorem trunc_nat (N : ℕ) : trunc (N : ℝ) = N := by
  unfold trunc
  rw [if_pos (Nat.cast_nonneg N)]
  exact_mod_cast Int.floor_natCast N

theorem oneChiSq_eq (d : Table r c) (i : Fin r) (j : Fin c) (n : ℤ) (hn : n ≠ 0) (hr : rowSum d i ≠ 0) (hc : colSum d j ≠ 0) :
    oneChiSq d i j n = some ((d i j - rowSum d i * colSum d j / n) ^ 2 / (rowSum d i * colSum d j / n)) := by
  have hn' : (n : ℝ) ≠ 0 := by exact_mod_cast hn
  have e : (n : ℝ) * (rowSum d i / n) * (colSum d j / n) = rowSum d i * colSum d j / n := by field_simp
  unfold oneChiSq div?
  rw [if_neg hn']
  simp only [Option.bind_some]
  rw [if_neg hn']
  simp only [Option.bind_some]
  rw [e, if_neg (div_ne_zero (mul_ne_zero hr hc) hn')]

theorem stat_eq (d : Table r c) (n : ℤ) (hn : n ≠ 0) (hr : ∀ i, rowSum d i ≠ 0) (hc : ∀ j, colSum d j ≠ 0) :
    sum? ((List.finRange r).flatMap fun i => (List.finRange c).map fun j => oneChiSq d i j n) =
      some (∑ i, ∑ j, (d i j - rowSum d i * colSum d j / n) ^ 2 / (rowSum d i * colSum d j / n)) := by
  have : ((List.finRange r).flatMap fun i => (List.finRange c).map fun j => oneChiSq d i j n) =
      ((List.finRange r).flatMap fun i => (List.finRange c).map fun j => (d i j - rowSum d i * colSum d j / n) ^ 2 / (rowSum d i * colSum d j / n)).map some := by
    rw [List.map_flatMap]
    congr 1
    funext i
    rw [List.map_map]
    apply List.map_congr_left
    intro j _
    exact oneChiSq_eq d i j n hn (hr i) (hc j)
  rw [this, sum?_some, sum_flatMap']
  simp only [Fin.sum_univ_def]

/-- **C100.** For any table of two or more rows and columns as described: Pearson's statistic against the counts expected if rows and columns are independent, (r - 1)(c - 1) degrees of freedom, and the upper tail of the χ² distribution. -/
theorem C100_statistic (Q : ℝ → ℤ → ℝ) (d : Table r c) (ok : Ok d) (h2r : 2 ≤ r) (h2c : 2 ≤ c) :
    test Q d = some ⟨some (chi d), (r - 1) * (c - 1), some (Q (chi d) ((r - 1) * (c - 1)))⟩ := by
  obtain ⟨N, hN, ht⟩ := ok.whole
  have hdf : df r c = ((r : ℤ) - 1) * (c - 1) := by unfold df; rw [if_neg (by omega), if_neg (by omega)]
  have hne : ((r : ℤ) - 1) * (c - 1) ≠ 0 := mul_ne_zero (by omega) (by omega)
  unfold test
  rw [hdf, if_neg hne]
  simp only
  rw [ht, trunc_nat, stat_eq d N (by exact_mod_cast hN.ne') (fun i => (ok.row i).ne') (fun j => (ok.col j).ne')]
  have : (∑ i, ∑ j, (d i j - rowSum d i * colSum d j / ((N : ℤ) : ℝ)) ^ 2 / (rowSum d i * colSum d j / ((N : ℤ) : ℝ))) = chi d := by
    unfold chi expected
    rw [ht]
    push_cast
    rfl
  rw [this]
  rfl

/-- **C100 (independence).** The statistic is never negative, and zero just if each cell is the product of its row's and its column's share of the total. -/
theorem C100_zero_iff (d : Table r c) (ok : Ok d) : 0 ≤ chi d ∧ (chi d = 0 ↔ ∀ i j, d i j / total d = (rowSum d i / total d) * (colSum d j / total d)) := by
  obtain ⟨N, hN, ht⟩ := ok.whole
  have hN' : (0 : ℝ) < total d := by rw [ht]; exact_mod_cast hN
  have he : ∀ i j, 0 < expected d i j := fun i j => div_pos (mul_pos (ok.row i) (ok.col j)) hN'
  have hterm : ∀ i j, 0 ≤ (d i j - expected d i j) ^ 2 / expected d i j := fun i j => div_nonneg (sq_nonneg _) (he i j).le
  refine ⟨Finset.sum_nonneg fun i _ => Finset.sum_nonneg fun j _ => hterm i j, ?_⟩
  unfold chi
  rw [Finset.sum_eq_zero_iff_of_nonneg fun i _ => Finset.sum_nonneg fun j _ => hterm i j]
  constructor
  · intro h i j
    have h1 := (Finset.sum_eq_zero_iff_of_nonneg fun j _ => hterm i j).1 (h i (Finset.mem_univ i)) j (Finset.mem_univ j)
    rcases div_eq_zero_iff.1 h1 with h2 | h2
    · have h3 : d i j = expected d i j := by
        have := pow_eq_zero_iff (two_ne_zero) |>.1 h2
        linarith
      rw [h3]
      unfold expected
      field_simp
    · exact absurd h2 (he i j).ne'
  · intro h i _
    apply Finset.sum_eq_zero
    intro j _
    have : d i j = expected d i j := by
      have := h i j
      unfold expected
      field_simp at this ⊢
      linarith
    rw [this]
    simp

/-- **C100 (rows and columns).** The transposed table has the same statistic, degrees of freedom and p value. -/
theorem C100_transpose (Q : ℝ → ℤ → ℝ) (d : Table r c) (ok : Ok d) (h2r : 2 ≤ r) (h2c : 2 ≤ c) : test Q (fun j i => d i j) = test Q d := by
  have htot : total (fun j i => d i j) = total d := Finset.sum_comm
  have ok' : Ok (fun j i => d i j : Table c r) := ⟨fun i j => ok.nonneg j i, ok.col, ok.row, by rw [htot]; exact ok.whole⟩
  rw [C100_statistic Q d ok h2r h2c, C100_statistic Q _ ok' h2c h2r]
  have : chi (fun j i => d i j : Table c r) = chi d := by
    unfold chi
    rw [Finset.sum_comm]
    apply Finset.sum_congr rfl
    intro i _
    apply Finset.sum_congr rfl
    intro j _
    have : expected (fun j i => d i j : Table c r) j i = expected d i j := by
      unfold expected
      rw [htot]
      show colSum d j * rowSum d i / total d = _
      rw [mul_comm]
    rw [this]
  rw [this, mul_comm ((c : ℤ) - 1)]

/-- **C100 (a row or column without observations) fails**: the result is not a number. -/
theorem C100_empty_row_refuted (Q : ℝ → ℤ → ℝ) (d : Table r c) (i : Fin r) (j : Fin c) (h : rowSum d i = 0) (o : Out) (ho : test Q d = some o) : o.stat = none ∧ o.p = none := by
  unfold test at ho
  split at ho
  · cases ho
  · simp only [Option.some.injEq] at ho
    subst ho
    have : oneChiSq d i j (trunc (total d)) = none := by
      unfold oneChiSq div?
      split
      · rfl
      · simp only [Option.bind_some]
        simp [h]
    have hs : sum? ((List.finRange r).flatMap fun i => (List.finRange c).map fun j => oneChiSq d i j (trunc (total d))) = none := by
      apply sum?_none
      rw [List.mem_flatMap]
      exact ⟨i, List.mem_finRange i, List.mem_map.2 ⟨j, List.mem_finRange j, this⟩⟩
    simp only
    rw [hs]
    exact ⟨rfl, rfl⟩

/-- **C100 (tables that do not sum to a whole number) fails**: the documentation says that the elements "don't have to sum to one". The total is cut down to a whole number n, so that a table in which rows and columns are independent has the statistic (total - n)²/n, and not zero. -/
theorem C100_fraction_refuted (Q : ℝ → ℤ → ℝ) (d : Table r c) (hr : ∀ i, 0 < rowSum d i) (hc : ∀ j, 0 < colSum d j) (h2r : 2 ≤ r) (h2c : 2 ≤ c)
    (hind : ∀ i j, d i j = rowSum d i * colSum d j / total d) (n : ℕ) (hn : 0 < n) (h1 : n ≤ total d) (h2 : total d < n + 1) :
    ∃ o, test Q d = some o ∧ o.stat = some ((total d - n) ^ 2 / n) := by
  have hn' : (0 : ℝ) < n := by exact_mod_cast hn
  have htr : trunc (total d) = n := by
    unfold trunc
    rw [if_pos (by linarith), Int.floor_eq_iff]
    exact ⟨by exact_mod_cast h1, by exact_mod_cast h2⟩
  have hdf : df r c = ((r : ℤ) - 1) * (c - 1) := by unfold df; rw [if_neg (by omega), if_neg (by omega)]
  have hne : ((r : ℤ) - 1) * (c - 1) ≠ 0 := mul_ne_zero (by omega) (by omega)
  unfold test
  rw [hdf, if_neg hne]
  simp only
  rw [htr, stat_eq d n (by exact_mod_cast hn.ne') (fun i => (hr i).ne') (fun j => (hc j).ne')]
  refine ⟨_, rfl, ?_⟩
  simp only [Option.some.injEq]
  have ht : (0 : ℝ) < total d := by linarith
  have hterm : ∀ i j, (d i j - rowSum d i * colSum d j / ((n : ℤ) : ℝ)) ^ 2 / (rowSum d i * colSum d j / ((n : ℤ) : ℝ)) = d i j * ((total d - n) ^ 2 / (n * total d)) := by
    intro i j
    have e : rowSum d i * colSum d j = d i j * total d := by
      rw [hind i j]
      field_simp
    have hd : 0 < d i j := by rw [hind i j]; exact div_pos (mul_pos (hr i) (hc j)) ht
    rw [e]
    push_cast
    field_simp
    ring
  simp only [hterm, ← Finset.sum_mul]
  show total d * _ = _
  field_simp

/-- **C100 (shares) fails**: for a table whose total is below one, nothing at all. -/
theorem C100_below_one_refuted (Q : ℝ → ℤ → ℝ) (d : Table r c) (i : Fin r) (j : Fin c) (h0 : 0 ≤ total d) (h1 : total d < 1) (o : Out) (ho : test Q d = some o) : o.stat = none ∧ o.p = none := by
  have htr : trunc (total d) = 0 := by
    unfold trunc
    rw [if_pos h0, Int.floor_eq_iff]
    exact ⟨by exact_mod_cast h0, by simpa using h1⟩
  unfold test at ho
  split at ho
  · cases ho
  · simp only [Option.some.injEq] at ho
    subst ho
    have : oneChiSq d i j (trunc (total d)) = none := by
      unfold oneChiSq div?
      rw [if_pos (by rw [htr]; simp)]
      rfl
    have hs : sum? ((List.finRange r).flatMap fun i => (List.finRange c).map fun j => oneChiSq d i j (trunc (total d))) = none := by
      apply sum?_none
      rw [List.mem_flatMap]
      exact ⟨i, List.mem_finRange i, List.mem_map.2 ⟨j, List.mem_finRange j, this⟩⟩
    simp only
    rw [hs]
    exact ⟨rfl, rfl⟩

/-- **C100 (one row) fails**: documented is that the null hypothesis is "that all cells are equally likely". For a table of one row the statistic is zero, whatever is in the cells. -/
theorem C100_one_row_refuted (Q : ℝ → ℤ → ℝ) (d : Table 1 c) (ok : Ok d) (h2c : 2 ≤ c) : test Q d = some ⟨some 0, c - 1, some (Q 0 (c - 1))⟩ := by
  obtain ⟨N, hN, ht⟩ := ok.whole
  have hN' : (0 : ℝ) < N := by exact_mod_cast hN
  have hdf : df 1 c = (c : ℤ) - 1 := rfl
  unfold test
  rw [hdf, if_neg (by omega)]
  simp only
  rw [ht, trunc_nat, stat_eq d N (by exact_mod_cast hN.ne') (fun i => (ok.row i).ne') (fun j => (ok.col j).ne')]
  have : (∑ i, ∑ j, (d i j - rowSum d i * colSum d j / ((N : ℤ) : ℝ)) ^ 2 / (rowSum d i * colSum d j / ((N : ℤ) : ℝ))) = 0 := by
    apply Finset.sum_eq_zero
    intro i _
    apply Finset.sum_eq_zero
    intro j _
    have h1 : rowSum d i = N := by
      rw [← ht]
      fin_cases i
      simp [rowSum, total]
    have h2 : colSum d j = d i j := by
      fin_cases i
      simp [colSum]
    rw [h1, h2]
    push_cast
    rw [mul_div_cancel_left₀ _ hN'.ne', sub_self]
    simp
  rw [this]
  rfl

/-- **C100 (one column) fails**: a table of one column has as many degrees of freedom as rows, one more than a table of one row of the same length has. -/
theorem C100_one_column_refuted (k : ℕ) (h : 2 ≤ k) : df k 1 = k ∧ df 1 k = (k : ℤ) - 1 := by
  constructor
  · unfold df; rw [if_neg (by omega), if_pos rfl]
  · rfl

/-- Nonvacuity: the table 1, 2; 3, 4. -/
example : Ok (fun i j => 2 * (i : ℝ) + j + 1 : Table 2 2) := by
  refine ⟨fun i j => by positivity, fun i => ?_, fun j => ?_, ⟨10, by norm_num, ?_⟩⟩
  · simp [rowSum, Fin.sum_univ_two]; positivity
  · simp [colSum, Fin.sum_univ_two]; positivity
  · simp [total, Fin.sum_univ_two]; norm_num

end Apop.Indep
