import Verif.Stats.Variance
import Mathlib.Data.Real.Basic
import Mathlib.Analysis.Real.Sqrt
import Mathlib.Tactic.Linarith
import Mathlib.Tactic.FieldSimp
import Mathlib.Tactic.Ring
import Mathlib.Tactic.Positivity

/-! # C98: t tests -/

namespace Apop.TTest
open Apop.Stats Real

/-! ## The model (exact arithmetic) -/

/-- A double: a number, an infinity or NaN. -/
inductive Val where
  | fin (x : ℝ)
  | pinf
  | ninf
  | nan

/-- Division of a number by one that is not negative. -/
noncomputable def ddiv (a b : ℝ) : Val := by
  classical exact if b ≠ 0 then .fin (a / b) else if 0 < a then .pinf else if a < 0 then .ninf else .nan

/-- What the t tests return; `none` is NaN. -/
structure Out where
  diff : ℝ
  stat : Val
  df : ℤ
  p1 : Option ℝ
  c1 : Option ℝ
  p2 : Option ℝ
  c2 : Option ℝ

/-- The two-tailed confidence, apop_tests.m4.c:10-11. -/
noncomputable def twoTail (pval : ℝ) : ℝ := 2 * min |pval - 1 / 2| |1 - pval - 1 / 2|

/-- The elements of the output, apop_tests.m4.c:17-25, if the statistic is not NaN. -/
noncomputable def fill (df : ℤ) (stat : Val) (diff pval : ℝ) : Out :=
  ⟨diff, stat, df, some (min pval (1 - pval)), some (1 - min pval (1 - pval)), some (1 - twoTail pval), some (twoTail pval)⟩

/-- `produce_t_test_output`, apop_tests.m4.c:6-27; `P df x` is `gsl_cdf_tdist_P(x, df)`. -/
noncomputable def produce (P : ℤ → ℝ → ℝ) (df : ℤ) (stat : Val) (diff : ℝ) : Out :=
  match stat with
  | .fin x => fill df stat diff (P df x)
  | .pinf => fill df stat diff 1
  | .ninf => fill df stat diff 0
  | .nan => ⟨diff, stat, df, none, none, none, none⟩

/-- The variance over the number less one, or zero, apop_tests.m4.c:58-65. -/
noncomputable def varPart (a : List ℝ) : Option ℝ :=
  if a.length > 1 then (vectorVar (some a) none).map fun v => v / ((a.length : ℝ) - 1) else some 0

/-- `apop_t_test`, apop_tests.m4.c:54-73; `none`: there is a vector without elements. -/
noncomputable def tTest (P : ℤ → ℝ → ℝ) (a b : List ℝ) : Option Out :=
  (vectorMean (some a) none).bind fun ma =>
  (vectorMean (some b) none).bind fun mb =>
  (varPart a).bind fun va =>
  (varPart b).bind fun vb =>
  some (produce P (a.length + b.length - 2) (ddiv (ma - mb) (√(vb + va))) (ma - mb))

/-- `apop_paired_t_test`, apop_tests.m4.c:91-103, for two vectors of the same length, at least two; `none` otherwise. -/
noncomputable def pairedTTest (P : ℤ → ℝ → ℝ) (a b : List ℝ) : Option Out :=
  if a.length ≠ b.length then none
  else
    (vectorMean (some (List.zipWith (· - ·) a b)) none).bind fun avg =>
    (vectorVar (some (List.zipWith (· - ·) a b)) none).bind fun var =>
    some (produce P (a.length - 1) (ddiv avg (√(var / ((a.length : ℝ) - 1)))) avg)

/-! ## Specification -/

/-- The mean. -/
noncomputable def mean (l : List ℝ) : ℝ := l.sum / l.length

/-- The sample variance. -/
noncomputable def var (l : List ℝ) : ℝ := (l.map fun x => (x - mean l) ^ 2).sum / ((l.length : ℝ) - 1)

/-- The t statistic of two samples: the difference of the means over its estimated standard error. -/
noncomputable def tStat (a b : List ℝ) : ℝ := (mean a - mean b) / √(var a / a.length + var b / b.length)

/-- A distribution function symmetric around zero. -/
structure IsCdf (P : ℝ → ℝ) : Prop where
  nonneg : ∀ x, 0 ≤ P x
  le_one : ∀ x, P x ≤ 1
  symm : ∀ x, P (-x) = 1 - P x

/-! ## Proofs -/

theorem two_tail_eq (p : ℝ) : 1 - twoTail p = 2 * min p (1 - p) := by
  unfold twoTail
  have : |1 - p - 1 / 2| = |p - 1 / 2| := by rw [← abs_neg]; congr 1; ring
  rw [this, min_self]
  rcases le_total p (1 / 2) with h | h
  · rw [abs_of_nonpos (by linarith), min_eq_left (by linarith)]; ring
  · rw [abs_of_nonneg (by linarith), min_eq_right (by linarith)]; ring

/-- **C98 (tails).** For any statistic that is a number and any distribution function: the one-tailed p value is the mass of the smaller tail, the two-tailed one is twice it, the confidences are one less them, and all are between 0 and 1. -/
theorem C98_tails (P : ℤ → ℝ → ℝ) (df : ℤ) (hP : IsCdf (P df)) (x diff : ℝ) : ∃ p : ℝ, p = min (P df x) (1 - P df x) ∧
    produce P df (.fin x) diff = ⟨diff, .fin x, df, some p, some (1 - p), some (2 * p), some (1 - 2 * p)⟩ ∧ 0 ≤ p ∧ p ≤ 1 / 2 := by
  refine ⟨_, rfl, ?_, le_min (hP.nonneg x) (by linarith [hP.le_one x]), ?_⟩
  · have h := two_tail_eq (P df x)
    simp only [produce, fill, Out.mk.injEq, Option.some.injEq, true_and]
    exact ⟨h, by linarith⟩
  · rcases le_total (P df x) (1 / 2) with h | h
    · exact min_le_of_left_le h
    · exact min_le_of_right_le (by linarith)

theorem varPart_eq (a : List ℝ) (h : 2 ≤ a.length) : varPart a = some (var a / ((a.length : ℝ) - 1)) := by
  unfold varPart
  rw [if_pos (by omega), C52_var a h]
  rfl

theorem var_nonneg (a : List ℝ) (h : 2 ≤ a.length) : 0 ≤ var a := by
  unfold var
  have h2 : (2 : ℝ) ≤ a.length := by exact_mod_cast h
  apply div_nonneg _ (by linarith)
  apply List.sum_nonneg
  intro x hx
  simp only [List.mem_map] at hx
  obtain ⟨y, _, rfl⟩ := hx
  exact sq_nonneg _

theorem ne_nil {a : List ℝ} (h : 1 ≤ a.length) : a ≠ [] := by intro e; simp [e] at h

/-- **C98 (two samples).** For any two samples of two or more, not both without variance: the difference of the means is given, the degrees of freedom are the sizes' sum less 2, and the statistic is that difference over the root of the sum of the samples' variances, each divided by the sample's size less one. -/
theorem C98_two_samples (P : ℤ → ℝ → ℝ) (a b : List ℝ) (ha : 2 ≤ a.length) (hb : 2 ≤ b.length) (hv : var a ≠ 0 ∨ var b ≠ 0) :
    tTest P a b = some (produce P (a.length + b.length - 2) (.fin ((mean a - mean b) / √(var a / (a.length - 1) + var b / (b.length - 1)))) (mean a - mean b)) := by
  unfold tTest
  rw [C51_mean a (ne_nil (by omega)), C51_mean b (ne_nil (by omega)), varPart_eq a ha, varPart_eq b hb]
  simp only [Option.bind_some]
  have h2 : (2 : ℝ) ≤ a.length := by exact_mod_cast ha
  have h3 : (2 : ℝ) ≤ b.length := by exact_mod_cast hb
  have hpos : 0 < var a / ((a.length : ℝ) - 1) + var b / ((b.length : ℝ) - 1) := by
    have va := var_nonneg a ha
    have vb := var_nonneg b hb
    have a1 : 0 ≤ var a / ((a.length : ℝ) - 1) := div_nonneg va (by linarith)
    have b1 : 0 ≤ var b / ((b.length : ℝ) - 1) := div_nonneg vb (by linarith)
    rcases hv with h | h
    · have : 0 < var a / ((a.length : ℝ) - 1) := div_pos (lt_of_le_of_ne va (Ne.symm h)) (by linarith)
      linarith
    · have : 0 < var b / ((b.length : ℝ) - 1) := div_pos (lt_of_le_of_ne vb (Ne.symm h)) (by linarith)
      linarith
  unfold ddiv
  rw [add_comm (var b / _), if_pos (Real.sqrt_ne_zero'.2 hpos)]
  rfl

/-- A sample of one. -/
theorem varPart_one (x : ℝ) : varPart [x] = some 0 := by simp [varPart]

/-- **C98 (a sample of one)** counts as one without variance of its own: the standard error is that of the other sample, and there are n − 1 degrees of freedom; with two samples of one the statistic is infinite or NaN. -/
theorem C98_one (P : ℤ → ℝ → ℝ) (x : ℝ) (b : List ℝ) (hb : 2 ≤ b.length) (hv : var b ≠ 0) :
    tTest P [x] b = some (produce P ((b.length : ℤ) - 1) (.fin ((x - mean b) / √(var b / (b.length - 1)))) (x - mean b)) ∧
    tTest P b [x] = some (produce P ((b.length : ℤ) - 1) (.fin ((mean b - x) / √(var b / (b.length - 1)))) (mean b - x)) := by
  have h3 : (2 : ℝ) ≤ b.length := by exact_mod_cast hb
  have hpos : 0 < var b / ((b.length : ℝ) - 1) := div_pos (lt_of_le_of_ne (var_nonneg b hb) (Ne.symm hv)) (by linarith)
  have hx : vectorMean (some [x]) none = some x := by rw [C51_mean [x] (by simp)]; simp
  have hs : √(var b / ((b.length : ℝ) - 1)) ≠ 0 := Real.sqrt_ne_zero'.2 hpos
  have d1 : ((1 : ℕ) : ℤ) + b.length - 2 = b.length - 1 := by omega
  have d2 : (b.length : ℤ) + (1 : ℕ) - 2 = b.length - 1 := by omega
  constructor
  · unfold tTest
    rw [hx, C51_mean b (ne_nil (by omega)), varPart_one, varPart_eq b hb]
    simp only [Option.bind_some, add_zero, List.length_singleton, d1]
    unfold ddiv
    rw [if_pos hs]; rfl
  · unfold tTest
    rw [hx, C51_mean b (ne_nil (by omega)), varPart_one, varPart_eq b hb]
    simp only [Option.bind_some, zero_add, List.length_singleton, d2]
    unfold ddiv
    rw [if_pos hs]; rfl

example : 2 ≤ [(1 : ℝ), 3].length ∧ var [1, 3] ≠ 0 := by norm_num [var, mean]

/-- **C98 (the t statistic) fails**: the variances, which have the size less one as divisor already, are divided by it, not by the size. For two samples of the same size n the result is the t statistic times the root of (n - 1)/n: too near zero. -/
theorem C98_statistic_refuted (P : ℤ → ℝ → ℝ) (a b : List ℝ) (ha : 2 ≤ a.length) (hab : a.length = b.length) (hv : var a ≠ 0 ∨ var b ≠ 0) :
    ∃ o, tTest P a b = some o ∧ o.stat = .fin (tStat a b * √(((a.length : ℝ) - 1) / a.length)) := by
  rw [C98_two_samples P a b ha (hab ▸ ha) hv]
  refine ⟨_, rfl, ?_⟩
  have h2 : (2 : ℝ) ≤ a.length := by exact_mod_cast ha
  show Val.fin _ = _
  congr 1
  unfold tStat
  rw [← hab]
  have e1 : var a / ((a.length : ℝ) - 1) + var b / (a.length - 1) = (var a + var b) / (a.length - 1) := by ring
  have e2 : var a / (a.length : ℝ) + var b / a.length = (var a + var b) / a.length := by ring
  have hs : 0 ≤ var a + var b := add_nonneg (var_nonneg a ha) (var_nonneg b (hab ▸ ha))
  rw [e1, e2, Real.sqrt_div hs, Real.sqrt_div hs, Real.sqrt_div (by linarith)]
  have s1 : √((a.length : ℝ) - 1) ≠ 0 := Real.sqrt_ne_zero'.2 (by linarith)
  have s2 : √(a.length : ℝ) ≠ 0 := Real.sqrt_ne_zero'.2 (by linarith)
  have s3 : √(var a + var b) ≠ 0 := by
    apply Real.sqrt_ne_zero'.2
    rcases hv with h | h
    · have := lt_of_le_of_ne (var_nonneg a ha) (Ne.symm h)
      linarith [var_nonneg b (hab ▸ ha)]
    · have := lt_of_le_of_ne (var_nonneg b (hab ▸ ha)) (Ne.symm h)
      linarith [var_nonneg a ha]
  field_simp

theorem min_symm (p : ℝ) : min (1 - p) (1 - (1 - p)) = min p (1 - p) := by rw [sub_sub_cancel, min_comm]

/-- **C98 (exchange).** If the two samples are exchanged, the difference and the statistic change sign, and the degrees of freedom, the p values and the confidences are the same. -/
theorem C98_exchange (P : ℤ → ℝ → ℝ) (hP : ∀ df, IsCdf (P df)) (a b : List ℝ) (ha : 2 ≤ a.length) (hb : 2 ≤ b.length) (hv : var a ≠ 0 ∨ var b ≠ 0) :
    ∃ o o' t, tTest P a b = some o ∧ tTest P b a = some o' ∧ o'.diff = - o.diff ∧ o.stat = .fin t ∧ o'.stat = .fin (-t) ∧ o'.df = o.df ∧
      o'.p1 = o.p1 ∧ o'.c1 = o.c1 ∧ o'.p2 = o.p2 ∧ o'.c2 = o.c2 := by
  rw [C98_two_samples P a b ha hb hv, C98_two_samples P b a hb ha hv.symm]
  refine ⟨_, _, _, rfl, rfl, by simp [produce, fill], rfl, ?_, ?_, ?_⟩
  · show Val.fin _ = _
    congr 1
    rw [add_comm (var b / _), ← neg_div, neg_sub]
  · show ((b.length : ℤ) + a.length - 2) = (a.length + b.length - 2)
    ring
  · have e : (mean b - mean a) / √(var b / (↑b.length - 1) + var a / (↑a.length - 1)) = - ((mean a - mean b) / √(var a / (↑a.length - 1) + var b / (↑b.length - 1))) := by
      rw [add_comm (var b / _), ← neg_div, neg_sub]
    have hd : ((b.length : ℤ) + a.length - 2) = (a.length + b.length - 2) := by ring
    have t1 := two_tail_eq (P (a.length + b.length - 2) ((mean a - mean b) / √(var a / (↑a.length - 1) + var b / (↑b.length - 1))))
    have t2 := two_tail_eq (1 - P (a.length + b.length - 2) ((mean a - mean b) / √(var a / (↑a.length - 1) + var b / (↑b.length - 1))))
    rw [min_symm, ← t1] at t2
    simp only [produce, fill, hd, e, (hP _).symm, min_symm]
    refine ⟨trivial, trivial, ?_, ?_⟩
    · rw [t2]
    · congr 1; linarith

theorem mean_map (a : List ℝ) (ha : a ≠ []) (c k : ℝ) : mean (a.map fun x => k * x + c) = k * mean a + c := by
  unfold mean
  have h0 : (a.length : ℝ) ≠ 0 := by
    rw [Nat.cast_ne_zero, ne_eq, List.length_eq_zero_iff]; exact ha
  have : ∀ l : List ℝ, (l.map fun x => k * x + c).sum = k * l.sum + l.length * c := by
    intro l
    induction l with
    | nil => simp
    | cons x l ih => simp only [List.map_cons, List.sum_cons, ih, List.length_cons]; push_cast; ring
  rw [this, List.length_map]
  field_simp

theorem var_map (a : List ℝ) (ha : a ≠ []) (c k : ℝ) : var (a.map fun x => k * x + c) = k ^ 2 * var a := by
  unfold var
  rw [mean_map a ha, List.map_map, List.length_map, ← mul_div_assoc, ← List.sum_map_mul_left]
  congr 2
  apply List.map_congr_left
  intro x _
  show (k * x + c - (k * mean a + c)) ^ 2 = k ^ 2 * (x - mean a) ^ 2
  ring

/-- **C98 (units).** If all elements are multiplied by a positive number and a constant is added, the statistic, degrees of freedom, p values and confidences stay the same: they do not depend on the unit and the origin. -/
theorem C98_units (P : ℤ → ℝ → ℝ) (a b : List ℝ) (ha : 2 ≤ a.length) (hb : 2 ≤ b.length) (hv : var a ≠ 0 ∨ var b ≠ 0) (k c : ℝ) (hk : 0 < k) :
    ∃ o o', tTest P a b = some o ∧ tTest P (a.map fun x => k * x + c) (b.map fun x => k * x + c) = some o' ∧ o' = { o with diff := k * o.diff } := by
  have na := ne_nil (show 1 ≤ a.length by omega)
  have nb := ne_nil (show 1 ≤ b.length by omega)
  rw [C98_two_samples P a b ha hb hv, C98_two_samples P _ _ (by simpa using ha) (by simpa using hb)]
  · refine ⟨_, _, rfl, rfl, ?_⟩
    have e : (mean (a.map fun x => k * x + c) - mean (b.map fun x => k * x + c)) / √(var (a.map fun x => k * x + c) / (((a.map fun x => k * x + c).length : ℝ) - 1) + var (b.map fun x => k * x + c) / (((b.map fun x => k * x + c).length : ℝ) - 1)) =
        (mean a - mean b) / √(var a / (a.length - 1) + var b / (b.length - 1)) := by
      rw [mean_map a na, mean_map b nb, var_map a na, var_map b nb, List.length_map, List.length_map]
      have : k ^ 2 * var a / (↑a.length - 1) + k ^ 2 * var b / (↑b.length - 1) = k ^ 2 * (var a / (↑a.length - 1) + var b / (↑b.length - 1)) := by ring
      rw [this, Real.sqrt_mul (by positivity), Real.sqrt_sq hk.le]
      have : k * mean a + c - (k * mean b + c) = k * (mean a - mean b) := by ring
      rw [this, mul_div_mul_left _ _ hk.ne']
    rw [e, mean_map a na, mean_map b nb, List.length_map, List.length_map]
    simp only [produce, fill, Out.mk.injEq, and_true, true_and]
    ring
  · rw [var_map a na, var_map b nb]
    rcases hv with h | h
    · exact .inl (mul_ne_zero (by positivity) h)
    · exact .inr (mul_ne_zero (by positivity) h)

/-- **C98 (no variance).** If neither sample has any variance: with equal means all but the difference and the degrees of freedom is NaN; else the statistic is infinite, with the sign of the difference, and the p values are zero. -/
theorem C98_constant (P : ℤ → ℝ → ℝ) (a b : List ℝ) (ha : 2 ≤ a.length) (hb : 2 ≤ b.length) (hva : var a = 0) (hvb : var b = 0) :
    ∃ o, tTest P a b = some o ∧ (mean a = mean b → o = ⟨0, .nan, a.length + b.length - 2, none, none, none, none⟩) ∧
      (mean a > mean b → o = ⟨mean a - mean b, .pinf, a.length + b.length - 2, some 0, some 1, some 0, some 1⟩) ∧
      (mean a < mean b → o = ⟨mean a - mean b, .ninf, a.length + b.length - 2, some 0, some 1, some 0, some 1⟩) := by
  unfold tTest
  rw [C51_mean a (ne_nil (by omega)), C51_mean b (ne_nil (by omega)), varPart_eq a ha, varPart_eq b hb]
  simp only [Option.bind_some, hva, hvb, zero_div, add_zero, Real.sqrt_zero]
  refine ⟨_, rfl, ?_, ?_, ?_⟩
  · intro h
    have h' : a.sum / a.length - b.sum / b.length = 0 := sub_eq_zero.2 h
    rw [h']
    simp [ddiv, produce]
  · intro h
    have h' : 0 < a.sum / a.length - b.sum / b.length := sub_pos.2 h
    simp only [ddiv, ne_eq, not_true_eq_false, if_false, if_pos h', produce, fill, twoTail, mean]
    norm_num
  · intro h
    have h' : a.sum / a.length - b.sum / b.length < 0 := sub_neg.2 h
    simp only [ddiv, ne_eq, not_true_eq_false, if_false, if_neg (not_lt.2 h'.le), if_pos h', produce, fill, twoTail, mean]
    norm_num

/-- **C98 (paired).** For any two vectors of the same length n of two or more, whose differences are not all the same: the mean of the differences is given, the degrees of freedom are n - 1, and the statistic is the mean of the differences over the root of their variance divided by n - 1 — so, as it should be divided by n, the t statistic times the root of (n - 1)/n. -/
theorem C98_paired (P : ℤ → ℝ → ℝ) (a b : List ℝ) (hab : a.length = b.length) (ha : 2 ≤ a.length) (d : List ℝ) (hd : d = List.zipWith (· - ·) a b) (hv : var d ≠ 0) :
    pairedTTest P a b = some (produce P (a.length - 1) (.fin (mean d / √(var d / (a.length - 1)))) (mean d)) ∧
    mean d / √(var d / (a.length - 1)) = mean d / √(var d / a.length) * √(((a.length : ℝ) - 1) / a.length) := by
  have hl : d.length = a.length := by rw [hd]; simp [hab]
  have h2 : (2 : ℝ) ≤ a.length := by exact_mod_cast ha
  have hvp : 0 < var d := lt_of_le_of_ne (var_nonneg d (by omega)) (Ne.symm hv)
  constructor
  · unfold pairedTTest
    rw [if_neg (by simpa using hab), ← hd, C51_mean d (ne_nil (by omega)), C52_var d (by omega)]
    simp only [Option.bind_some]
    have hp : (d.map fun x => (x - d.sum / d.length) ^ 2).sum / ((d.length : ℝ) - 1) / ((a.length : ℝ) - 1) = var d / (a.length - 1) := rfl
    rw [hp]
    unfold ddiv
    rw [if_pos (Real.sqrt_ne_zero'.2 (div_pos hvp (by linarith)))]
    rfl
  · rw [Real.sqrt_div hvp.le, Real.sqrt_div hvp.le, Real.sqrt_div (by linarith)]
    have s1 : √((a.length : ℝ) - 1) ≠ 0 := Real.sqrt_ne_zero'.2 (by linarith)
    have s2 : √(a.length : ℝ) ≠ 0 := Real.sqrt_ne_zero'.2 (by linarith)
    have s3 : √(var d) ≠ 0 := Real.sqrt_ne_zero'.2 hvp
    field_simp

/-- Nonvacuity: the samples 1, 3 and 0, 2. -/
example : var [1, 3] ≠ 0 ∧ var [0, 2] ≠ 0 ∧ mean [1, 3] - mean [0, 2] = 1 ∧ tStat [1, 3] [0, 2] = 1 / √2 := by
  norm_num [var, mean, tStat]

/-- Nonvacuity: there are functions like the distribution functions asked for. -/
example : IsCdf fun x => if x < 0 then 0 else if x = 0 then 1 / 2 else 1 := by
  constructor
  · intro x; split <;> [norm_num; (split <;> norm_num)]
  · intro x; split <;> [norm_num; (split <;> norm_num)]
  · intro x
    rcases lt_trichotomy x 0 with h | h | h
    · simp [h, not_lt.2 h.le, h.ne]
    · simp [h]; norm_num
    · simp [h, not_lt.2 h.le, h.ne']

end Apop.TTest
