import Mathlib.Data.Real.Basic
import Mathlib.Algebra.Order.Archimedean.Real.Basic
import Mathlib.Data.Matrix.Mul
import Mathlib.Algebra.BigOperators.Fin
import Mathlib.Data.Nat.Factorial.Basic
import Mathlib.LinearAlgebra.Matrix.Notation
import Mathlib.Algebra.Order.Floor.Ring
import Mathlib.Tactic.Linarith
import Mathlib.Tactic.FieldSimp
import Mathlib.Tactic.Ring
import Mathlib.Tactic.Positivity
import Mathlib.Tactic.FinCases

/-! # C95: the one-sample Kolmogorov distribution -/

namespace Apop.Kolmogorov
open Matrix

/-! ## The model (exact arithmetic; sizes within `int`) -/

/-- `m_multiply`, apop_hist.m4.c:88-100, entry by entry. -/
def mMultiply {m : ℕ} (A B : Matrix (Fin m) (Fin m) ℝ) : Matrix (Fin m) (Fin m) ℝ :=
  fun i j => (List.finRange m).foldl (fun s k => s + A i k * B k j) 0

/-- The scaling at the end of `m_power`, apop_hist.m4.c:127-131. -/
noncomputable def rescale {m : ℕ} (mid : Fin m) (r : Matrix (Fin m) (Fin m) ℝ × ℤ) : Matrix (Fin m) (Fin m) ℝ × ℤ := by
  classical exact if r.1 mid mid > 10 ^ 140 then (fun i j => r.1 i j * (10 ^ 140)⁻¹, r.2 + 140) else r

/-- What `m_power` makes of the power to `n / 2`, apop_hist.m4.c:116-131. -/
noncomputable def powStep {m : ℕ} (mid : Fin m) (A : Matrix (Fin m) (Fin m) ℝ) (eA : ℤ) (n : ℕ) (r : Matrix (Fin m) (Fin m) ℝ × ℤ) : Matrix (Fin m) (Fin m) ℝ × ℤ :=
  rescale mid (if n % 2 = 0 then (mMultiply r.1 r.1, 2 * r.2) else (mMultiply A (mMultiply r.1 r.1), eA + 2 * r.2))

/-- `m_power`, apop_hist.m4.c:102-133; `none`: it calls itself without end. -/
noncomputable def mPower {m : ℕ} (mid : Fin m) (A : Matrix (Fin m) (Fin m) ℝ) (eA : ℤ) (n : ℕ) : Option (Matrix (Fin m) (Fin m) ℝ × ℤ) :=
  if n = 0 then none
  else if n = 1 then some (A, eA)
  else (mPower mid A eA (n / 2)).map (powStep mid A eA n)
termination_by n

/-- An array indexed by row and column. -/
abbrev Arr := ℕ → ℕ → ℝ

/-- One element set. -/
def upd (H : Arr) (i j : ℕ) (f : ℝ → ℝ) : Arr := fun a b => if a = i ∧ b = j then f (H a b) else H a b

/-- The first loops, apop_hist.m4.c:159-162. -/
noncomputable def ones : Arr := fun i j => if (i : ℤ) - j + 1 < 0 then 0 else 1

/-- The second loop, apop_hist.m4.c:163-166. -/
noncomputable def edges (h : ℝ) (m : ℕ) (H : Arr) : Arr :=
  (List.range m).foldl (fun H i => upd (upd H i 0 (· - h ^ (i + 1))) (m - 1) i (· - h ^ (m - i))) H

/-- The corner, apop_hist.m4.c:167. -/
noncomputable def corner (h : ℝ) (m : ℕ) (H : Arr) : Arr := by
  classical exact upd H (m - 1) 0 (· + if 2 * h - 1 > 0 then (2 * h - 1) ^ m else 0)

/-- The last loops, apop_hist.m4.c:168-172. -/
noncomputable def divide (H : Arr) : Arr := fun i j =>
  if (i : ℤ) - j + 1 > 0 then (List.range (i + 1 - j)).foldl (fun x g => x / ((g + 1 : ℕ) : ℝ)) (H i j) else H i j

/-- The scaling by n!/nⁿ, apop_hist.m4.c:176-182. -/
noncomputable def factorials (n : ℕ) (r : ℝ × ℤ) : ℝ × ℤ :=
  (List.range n).foldl (fun s i => by
    classical exact if s.1 * ((i + 1 : ℕ) : ℝ) / n < (10 ^ 140)⁻¹ then (s.1 * ((i + 1 : ℕ) : ℝ) / n * 10 ^ 140, s.2 - 140) else (s.1 * ((i + 1 : ℕ) : ℝ) / n, s.2)) r

/-- `kolmogorov_2x`, apop_hist.m4.c:136-187, for a nonnegative `d`. -/
noncomputable def kolmogorov2x (n : ℕ) (d : ℝ) : Option ℝ :=
  let k := ⌊n * d⌋₊ + 1
  let m := 2 * k - 1
  let h := k - n * d
  let H := divide (corner h m (edges h m ones))
  (mPower (m := m) ⟨m / 2, by omega⟩ (fun i j => H i j) 0 n).map fun Q =>
    let r := factorials n (Q.1 ⟨k - 1, by omega⟩ ⟨k - 1, by omega⟩, Q.2)
    r.1 * 10 ^ r.2

/-! ## Specification: the matrix of Marsaglia, Tsang and Wang -/

/-- Its elements, for rows and columns from 0 to m - 1. -/
noncomputable def mtw (h : ℝ) (m i j : ℕ) : ℝ :=
  if i + 1 < j then 0
  else (1 - (if j = 0 then h ^ (i + 1) else 0) - (if i = m - 1 then h ^ (m - j) else 0) + (if i = m - 1 ∧ j = 0 then (max (2 * h - 1) 0) ^ m else 0)) / (i + 1 - j).factorial

/-! ## Proofs -/

theorem mMultiply_eq {m : ℕ} (A B : Matrix (Fin m) (Fin m) ℝ) : mMultiply A B = A * B := by
  funext i j
  unfold mMultiply
  rw [Matrix.mul_apply]
  have : ∀ (l : List (Fin m)) (z : ℝ), l.foldl (fun s k => s + A i k * B k j) z = z + (l.map fun k => A i k * B k j).sum := by
    intro l
    induction l with
    | nil => intro z; simp
    | cons a l ih => intro z; simp [ih, add_assoc]
  rw [this, zero_add, Fin.sum_univ_def]

/-- The value of a scaled matrix. -/
noncomputable def val {m : ℕ} (r : Matrix (Fin m) (Fin m) ℝ × ℤ) : Matrix (Fin m) (Fin m) ℝ := ((10 : ℝ) ^ r.2) • r.1

theorem val_rescale {m : ℕ} (mid : Fin m) (r : Matrix (Fin m) (Fin m) ℝ × ℤ) : val (rescale mid r) = val r := by
  unfold rescale
  split
  · unfold val
    funext i j
    show (10 : ℝ) ^ (r.2 + 140) * (r.1 i j * (10 ^ 140)⁻¹) = 10 ^ r.2 * r.1 i j
    rw [zpow_add₀ (by norm_num)]
    have : (10 : ℝ) ^ (140 : ℤ) = 10 ^ 140 := by norm_cast
    rw [this]
    field_simp
  · rfl

/-- **C95 (powers).** For any matrix and any exponent of at least one, the result, with its scale, is the power, however often it was scaled down underway. -/
theorem C95_power {m : ℕ} (mid : Fin m) (A : Matrix (Fin m) (Fin m) ℝ) (eA : ℤ) (n : ℕ) (hn : 1 ≤ n) :
    ∃ r, mPower mid A eA n = some r ∧ ((10 : ℝ) ^ r.2) • r.1 = (((10 : ℝ) ^ eA) • A) ^ n := by
  induction n using Nat.strong_induction_on with
  | _ n ih =>
    rw [mPower, if_neg (by omega)]
    by_cases h1 : n = 1
    · subst h1
      exact ⟨_, if_pos rfl, by simp⟩
    · rw [if_neg h1]
      obtain ⟨r, hr, hv⟩ := ih (n / 2) (by omega) (by omega)
      rw [hr]
      refine ⟨_, rfl, ?_⟩
      show val (powStep mid A eA n r) = _
      unfold powStep
      rw [val_rescale]
      have hsq : ((10 : ℝ) ^ (2 * r.2)) • (r.1 * r.1) = (((10 : ℝ) ^ eA) • A) ^ (n / 2) * (((10 : ℝ) ^ eA) • A) ^ (n / 2) := by
        rw [← hv, smul_mul_smul_comm, ← zpow_add₀ (by norm_num), two_mul]
      split
      · rename_i he
        simp only [val, mMultiply_eq]
        rw [hsq, ← pow_add]
        congr 1
        omega
      · rename_i he
        simp only [val, mMultiply_eq]
        rw [zpow_add₀ (by norm_num), ← smul_mul_smul_comm, hsq, ← pow_add, ← pow_succ']
        congr 1
        omega

/-- **C95 (no data) fails**: with an exponent of zero, as for a data set without rows, there is no end. -/
theorem C95_zero_refuted {m : ℕ} (mid : Fin m) (A : Matrix (Fin m) (Fin m) ℝ) (eA : ℤ) : mPower mid A eA 0 = none := by
  rw [mPower, if_pos rfl]

theorem edges_eq (h : ℝ) (m : ℕ) (hm : 0 < m) (H : Arr) : ∀ (t : ℕ), t ≤ m → ∀ a b, (List.range t).foldl (fun H i => upd (upd H i 0 (· - h ^ (i + 1))) (m - 1) i (· - h ^ (m - i))) H a b =
    H a b - (if b = 0 ∧ a < t then h ^ (a + 1) else 0) - (if a = m - 1 ∧ b < t then h ^ (m - b) else 0) := by
  intro t
  induction t with
  | zero => intro _ a b; simp
  | succ t ih =>
    intro ht a b
    rw [List.range_succ, List.foldl_append]
    simp only [List.foldl_cons, List.foldl_nil, upd]
    rw [ih (by omega) a b]
    have hlt1 : (b = 0 ∧ a < t + 1) ↔ ((b = 0 ∧ a < t) ∨ (a = t ∧ b = 0)) := by omega
    have hlt2 : (a = m - 1 ∧ b < t + 1) ↔ ((a = m - 1 ∧ b < t) ∨ (a = m - 1 ∧ b = t)) := by omega
    by_cases c1 : a = t ∧ b = 0
    · by_cases c2 : a = m - 1 ∧ b = t
      · obtain ⟨h1, h2⟩ := c1
        obtain ⟨h3, h4⟩ := c2
        obtain rfl : t = 0 := by omega
        obtain rfl : m = 1 := by omega
        subst h2; subst h1
        simp
      · rw [if_neg c2, if_pos c1, if_neg (show ¬ (b = 0 ∧ a < t) by omega), if_pos (show b = 0 ∧ a < t + 1 by omega), c1.1]
        by_cases c3 : t = m - 1 ∧ b < t
        · rw [if_pos c3, if_pos (show t = m - 1 ∧ b < t + 1 by omega)]; ring
        · rw [if_neg c3, if_neg (show ¬ (t = m - 1 ∧ b < t + 1) by omega)]; ring
    · by_cases c2 : a = m - 1 ∧ b = t
      · rw [if_pos c2, if_neg c1, if_neg (show ¬ (a = m - 1 ∧ b < t) by omega), if_pos (show a = m - 1 ∧ b < t + 1 by omega), c2.2]
        by_cases c3 : t = 0 ∧ a < t
        · omega
        · rw [if_neg c3, if_neg (show ¬ (t = 0 ∧ a < t + 1) by omega)]; ring
      · rw [if_neg c2, if_neg c1]
        congr 1
        · congr 1
          exact if_congr (by omega) rfl rfl
        · exact if_congr (by omega) rfl rfl

theorem div_fold (x : ℝ) (t : ℕ) : (List.range t).foldl (fun x g => x / ((g + 1 : ℕ) : ℝ)) x = x / t.factorial := by
  induction t with
  | zero => simp
  | succ t ih =>
    rw [List.range_succ, List.foldl_append, ih, List.foldl_cons, List.foldl_nil, Nat.factorial_succ]
    push_cast
    field_simp

theorem matrix_eq (h : ℝ) (m : ℕ) (hm : 0 < m) (i j : ℕ) (hi : i < m) (hj : j < m) : divide (corner h m (edges h m ones)) i j = mtw h m i j := by
  have he := edges_eq h m hm ones m le_rfl i j
  have hc : corner h m (edges h m ones) i j = edges h m ones i j + (if i = m - 1 ∧ j = 0 then (max (2 * h - 1) 0) ^ m else 0) := by
    unfold corner upd
    split
    · congr 1
      by_cases hp : 2 * h - 1 > 0
      · rw [if_pos hp, max_eq_left hp.le]
      · rw [if_neg hp, max_eq_right (not_lt.1 hp), zero_pow hm.ne']
    · simp
  have he' : edges h m ones i j = ones i j - (if j = 0 then h ^ (i + 1) else 0) - (if i = m - 1 then h ^ (m - j) else 0) := by
    unfold edges
    rw [he]
    congr 1
    · congr 1
      exact if_congr (by simp [hi]) rfl rfl
    · exact if_congr (by simp [hj]) rfl rfl
  unfold divide mtw
  by_cases hlt : i + 1 < j
  · rw [if_neg (by omega), if_pos hlt, hc, he']
    unfold ones
    rw [if_pos (by omega), if_neg (by omega), if_neg (by omega), if_neg (by omega)]
    ring
  · rw [if_neg hlt]
    by_cases heq : i + 1 = j
    · rw [if_neg (by omega), hc, he']
      unfold ones
      rw [if_neg (by omega), heq, Nat.sub_self, Nat.factorial_zero, Nat.cast_one, div_one]
    · rw [if_pos (by omega), div_fold, hc, he']
      unfold ones
      rw [if_neg (by omega)]

theorem factorials_eq (n : ℕ) (r : ℝ × ℤ) : (factorials n r).1 * 10 ^ (factorials n r).2 = r.1 * 10 ^ r.2 * n.factorial / n ^ n := by
  unfold factorials
  have : ∀ t, ((List.range t).foldl (fun (s : ℝ × ℤ) i => (by
    classical exact if s.1 * ((i + 1 : ℕ) : ℝ) / n < (10 ^ 140)⁻¹ then (s.1 * ((i + 1 : ℕ) : ℝ) / n * 10 ^ 140, s.2 - 140) else (s.1 * ((i + 1 : ℕ) : ℝ) / n, s.2) : ℝ × ℤ)) r).1 *
      10 ^ ((List.range t).foldl (fun (s : ℝ × ℤ) i => (by
    classical exact if s.1 * ((i + 1 : ℕ) : ℝ) / n < (10 ^ 140)⁻¹ then (s.1 * ((i + 1 : ℕ) : ℝ) / n * 10 ^ 140, s.2 - 140) else (s.1 * ((i + 1 : ℕ) : ℝ) / n, s.2) : ℝ × ℤ)) r).2 = r.1 * 10 ^ r.2 * t.factorial / n ^ t := by
    intro t
    induction t with
    | zero => simp
    | succ t ih =>
      rw [List.range_succ, List.foldl_append, List.foldl_cons, List.foldl_nil]
      set s := (List.range t).foldl (fun (s : ℝ × ℤ) i => (by
        classical exact if s.1 * ((i + 1 : ℕ) : ℝ) / n < (10 ^ 140)⁻¹ then (s.1 * ((i + 1 : ℕ) : ℝ) / n * 10 ^ 140, s.2 - 140) else (s.1 * ((i + 1 : ℕ) : ℝ) / n, s.2) : ℝ × ℤ)) r
      have goal : s.1 * ((t + 1 : ℕ) : ℝ) / n * 10 ^ s.2 = r.1 * 10 ^ r.2 * (t + 1).factorial / n ^ (t + 1) := by
        have : s.1 * ((t + 1 : ℕ) : ℝ) / n * 10 ^ s.2 = (s.1 * 10 ^ s.2) * ((t + 1 : ℕ) : ℝ) / n := by ring
        rw [this, ih, Nat.factorial_succ, pow_succ]
        push_cast
        rw [div_mul_eq_mul_div, div_div]
        ring
      split
      · rw [← goal]
        simp only
        have : (10 : ℝ) ^ (s.2 - 140) = 10 ^ s.2 / 10 ^ 140 := by
          rw [zpow_sub₀ (by norm_num)]
          norm_cast
        rw [this]
        field_simp
      · exact goal
  exact this n

/-- **C95.** For any number of observations, at least one, and any nonnegative distance d, with k the whole part of nd plus one, h = k - nd and m = 2k - 1: the result is n!/nⁿ times the middle element of the n-th power of the m by m matrix of Marsaglia, Tsang and Wang. -/
theorem C95_formula (n : ℕ) (hn : 1 ≤ n) (d : ℝ) (k : ℕ) (hk : k = ⌊n * d⌋₊ + 1) (c : Fin (2 * k - 1)) (hc : (c : ℕ) = k - 1) :
    kolmogorov2x n d = some ((n.factorial : ℝ) / n ^ n * ((Matrix.of fun i j : Fin (2 * k - 1) => mtw (k - n * d) (2 * k - 1) i j) ^ n) c c) := by
  subst hk
  unfold kolmogorov2x
  simp only
  obtain ⟨r, hr, hv⟩ := C95_power (m := 2 * (⌊n * d⌋₊ + 1) - 1) ⟨(2 * (⌊n * d⌋₊ + 1) - 1) / 2, by omega⟩
    (fun i j => divide (corner (((⌊n * d⌋₊ + 1 : ℕ) : ℝ) - n * d) (2 * (⌊n * d⌋₊ + 1) - 1) (edges (((⌊n * d⌋₊ + 1 : ℕ) : ℝ) - n * d) (2 * (⌊n * d⌋₊ + 1) - 1) ones)) i j) 0 n hn
  rw [hr, Option.map_some, factorials_eq]
  congr 1
  have hH : (fun i j : Fin (2 * (⌊n * d⌋₊ + 1) - 1) => divide (corner (((⌊n * d⌋₊ + 1 : ℕ) : ℝ) - n * d) (2 * (⌊n * d⌋₊ + 1) - 1) (edges (((⌊n * d⌋₊ + 1 : ℕ) : ℝ) - n * d) (2 * (⌊n * d⌋₊ + 1) - 1) ones)) i j) =
      Matrix.of fun i j : Fin (2 * (⌊n * d⌋₊ + 1) - 1) => mtw (((⌊n * d⌋₊ + 1 : ℕ) : ℝ) - n * d) (2 * (⌊n * d⌋₊ + 1) - 1) i j := by
    funext i j
    exact matrix_eq _ _ (by omega) i j i.2 j.2
  rw [hH, zpow_zero, one_smul] at hv
  rw [← hv]
  have hcc : c = ⟨⌊n * d⌋₊ + 1 - 1, by omega⟩ := Fin.ext hc
  rw [← hcc, Matrix.smul_apply, smul_eq_mul]
  ring

/-- **C95 (one observation).** For one observation the result is the distribution function of its distance: for a value with a uniform distribution on [0, 1] the greater of the value and one less it: 0 below 1/2, 2d - 1 up to 1, and 1 at 1. -/
theorem C95_one (d : ℝ) (h0 : 0 ≤ d) (h1 : d ≤ 1) : kolmogorov2x 1 d = some (max (2 * d - 1) 0) := by
  rcases h1.eq_or_lt with rfl | h1
  · have hk : (2 : ℕ) = ⌊((1 : ℕ) : ℝ) * 1⌋₊ + 1 := by norm_num
    rw [C95_formula 1 le_rfl 1 2 hk ⟨1, by norm_num⟩ (by norm_num)]
    simp [mtw]
    norm_num
  · have hk : (1 : ℕ) = ⌊((1 : ℕ) : ℝ) * d⌋₊ + 1 := by
      have : ⌊((1 : ℕ) : ℝ) * d⌋₊ = 0 := by
        rw [Nat.floor_eq_zero]; push_cast; linarith
      rw [this]
    rw [C95_formula 1 le_rfl d 1 hk ⟨0, by norm_num⟩ (by norm_num)]
    congr 1
    simp [mtw]
    rcases le_total (2 * (1 - d) - 1) 0 with h | h
    · rw [max_eq_right h, max_eq_left (by linarith)]; ring
    · rw [max_eq_left h, max_eq_right (by linarith)]; ring

end Apop.Kolmogorov
