import Verif.Base.C
import Verif.Rng.Reject
import Mathlib.Analysis.Convex.SpecificFunctions.Basic
import Mathlib.Analysis.PSeries
import Mathlib.MeasureTheory.Measure.Lebesgue.Basic
import Mathlib.MeasureTheory.Measure.Prod
import Mathlib.MeasureTheory.Function.SpecialFunctions.Basic
import Mathlib.MeasureTheory.Function.Floor
import Mathlib.MeasureTheory.Constructions.BorelSpace.Order
import Mathlib.Tactic.FieldSimp
import Mathlib.Tactic.Linarith

/-! # C149: draws from the Zipf distribution (model/apop_zipf.c)

`gsl_rng_uniform` gives independent uniform numbers in [0, 1) (idealised to real numbers); the arithmetic is exact. The conversion of a `long double` to `int` is undefined behaviour from 2³¹ on; the model has any bound `M` in place of 2³¹. -/

namespace Apop.Rng

open MeasureTheory Set

/-- What `gsl_rng_uniform` gives: uniform on [0, 1). -/
noncomputable def unit : Measure ℝ := volume.restrict (Ico 0 1)

/-- Two calls of `gsl_rng_uniform`. -/
noncomputable def unit2 : Measure (ℝ × ℝ) := unit.prod unit

/-- `t` at model/apop_zipf.c:60. -/
noncomputable def zipfT (a : ℝ) (x : ℕ) : ℝ := (1 + 1 / (x : ℝ)) ^ (a - 1)

/-- The condition of the `while` at line 61 with `b` = 2^(a−1). -/
def zipfAgain (a : ℝ) (x : ℕ) (v : ℝ) : Prop := v * x * (zipfT a x - 1) / ((2 : ℝ) ^ (a - 1) - 1) > zipfT a x / (2 : ℝ) ^ (a - 1)

/-- `powl(u, ainv)` with `ainv` = −1/(a−1), line 59. It is infinite (`none`) if u is zero, or a is one. -/
noncomputable def zipfPow (a u : ℝ) : Option ℝ := if u = 0 ∨ a = 1 then none else some (u ^ (-(1 / (a - 1))))

/-- Conversion to an `int`: undefined from `M` = 2³¹ on. -/
noncomputable def toInt (M : ℕ) : Option ℝ → Res ℕ
  | none => .ub
  | some w => if w < M then .ok ⌊w⌋₊ else .ub

/-- What one turn of the loop makes of the integer: `none` is another turn. -/
noncomputable def zipfTurn (a v : ℝ) : Res ℕ → Option (Res ℕ)
  | .ub => some .ub
  | .ok x => open Classical in if zipfAgain a x v then none else some (.ok x)

/-- One turn of the loop in `zipf_rng`, model/apop_zipf.c:56-61. -/
noncomputable def zipfStep (M : ℕ) (a : ℝ) (r : ℝ × ℝ) : Option (Res ℕ) := zipfTurn a r.2 (toInt M (zipfPow a r.1))

/-- `zipf_rng`, model/apop_zipf.c:47-64, for a parameter `a` of at least one: what is written to `*out`. -/
noncomputable def zipfRng (M : ℕ) (a : ℝ) (ω : ℕ → ℝ × ℝ) : Option (Res ℕ) := firstSome (zipfStep M a) ω

/-- The probability space of a draw: an endless supply of pairs of uniform numbers. -/
noncomputable def supply : Measure (ℕ → ℝ × ℝ) := Measure.infinitePi fun _ => unit2

/-! ### Lemmas -/

theorem unit_Ioc (p q : ℝ) (hp : 0 ≤ p) (hq : q ≤ 1) : unit (Ioc p q) = ENNReal.ofReal (q - p) := by
  rw [unit, Measure.restrict_congr_set Ico_ae_eq_Ioc, Measure.restrict_apply measurableSet_Ioc, Ioc_inter_Ioc, sup_eq_left.mpr hp, inf_eq_left.mpr hq, Real.volume_Ioc]

theorem unit_Iic (q : ℝ) (hq0 : 0 ≤ q) (hq : q ≤ 1) : unit (Iic q) = ENNReal.ofReal q := by
  rw [unit, Measure.restrict_congr_set Ico_ae_eq_Ioc, Measure.restrict_apply measurableSet_Iic]
  have : Iic q ∩ Ioc (0 : ℝ) 1 = Ioc 0 q := by
    ext x; simp only [mem_inter_iff, mem_Iic, mem_Ioc]; constructor
    · rintro ⟨h, h1, _⟩; exact ⟨h1, h⟩
    · rintro ⟨h1, h⟩; exact ⟨h, h1, h.trans hq⟩
  rw [this, Real.volume_Ioc, sub_zero]

instance : IsProbabilityMeasure unit := ⟨by
  rw [unit, Measure.restrict_apply MeasurableSet.univ, univ_inter, Real.volume_Ico]; simp⟩

instance : IsProbabilityMeasure unit2 := by unfold unit2; infer_instance

theorem unit2_ae : ∀ᵐ r ∂unit2, (0 ≤ r.1 ∧ r.1 < 1) ∧ 0 ≤ r.2 ∧ r.2 < 1 := by
  have e : unit2 = (volume.prod volume).restrict (Ico (0 : ℝ) 1 ×ˢ Ico (0 : ℝ) 1) := Measure.prod_restrict _ _
  rw [e]
  filter_upwards [ae_restrict_mem (measurableSet_Ico.prod measurableSet_Ico)] with r hr
  exact hr

theorem bernoulli_zipf (s y : ℝ) (hs : 0 < s) (hy0 : 0 ≤ y) (hy : y ≤ 1) : (1 + y) ^ (-s) ≤ 1 + y * ((2 : ℝ) ^ (-s) - 1) := by
  have h1 : (2 : ℝ) ^ y ≤ 1 + y := by
    have := rpow_one_add_le_one_add_mul_self (s := 1) (by norm_num) hy0 hy
    norm_num at this; linarith
  have h2 : (1 + y) ^ (-s) ≤ ((2 : ℝ) ^ y) ^ (-s) := Real.rpow_le_rpow_of_nonpos (by positivity) h1 (by linarith)
  have h3 : ((2 : ℝ) ^ y) ^ (-s) = (1 + ((2 : ℝ) ^ (-s) - 1)) ^ y := by
    rw [← Real.rpow_mul (by norm_num), mul_comm, Real.rpow_mul (by norm_num)]; congr 1; ring
  have hpos : (0 : ℝ) < (2 : ℝ) ^ (-s) := by positivity
  have h4 := rpow_one_add_le_one_add_mul_self (s := (2 : ℝ) ^ (-s) - 1) (by linarith) hy0 hy
  linarith

/-- The bound for v below which k is accepted. -/
noncomputable def zipfC (a : ℝ) (k : ℕ) : ℝ := zipfT a k * ((2 : ℝ) ^ (a - 1) - 1) / ((2 : ℝ) ^ (a - 1) * k * (zipfT a k - 1))

theorem b_gt (a : ℝ) (ha : 1 < a) : 1 < (2 : ℝ) ^ (a - 1) := Real.one_lt_rpow (by norm_num) (by linarith)

theorem t_gt (a : ℝ) (ha : 1 < a) (k : ℕ) (hk : 0 < k) : 1 < zipfT a k := by
  have : (0 : ℝ) < k := by exact_mod_cast hk
  exact Real.one_lt_rpow (by have : 0 < 1 / (k : ℝ) := by positivity
                             linarith) (by linarith)

theorem zipfC_bounds (a : ℝ) (ha : 1 < a) (k : ℕ) (hk : 0 < k) : 0 ≤ zipfC a k ∧ zipfC a k ≤ 1 := by
  have hb := b_gt a ha
  have ht := t_gt a ha k hk
  have hk1 : (1 : ℝ) ≤ k := by exact_mod_cast hk
  have hk0 : (0 : ℝ) < k := by linarith
  have hd : 0 < (2 : ℝ) ^ (a - 1) * k * (zipfT a k - 1) := mul_pos (mul_pos (by linarith) hk0) (by linarith)
  constructor
  · exact div_nonneg (mul_nonneg (by linarith) (by linarith)) hd.le
  · rw [zipfC, div_le_one hd]
    have hB := bernoulli_zipf (a - 1) (1 / k) (by linarith) (by positivity) ((div_le_one hk0).mpr hk1)
    have e1 : (1 + 1 / (k : ℝ)) ^ (-(a - 1)) = (zipfT a k)⁻¹ := Real.rpow_neg (by positivity) _
    have e2 : (2 : ℝ) ^ (-(a - 1)) = ((2 : ℝ) ^ (a - 1))⁻¹ := Real.rpow_neg (by norm_num) _
    rw [e1, e2] at hB
    generalize zipfT a k = t at *
    generalize (2 : ℝ) ^ (a - 1) = b at *
    have ht0 : 0 < t := by linarith
    have hb0 : 0 < b := by linarith
    have := mul_le_mul_of_nonneg_left hB (by positivity : 0 ≤ t * b * k)
    have e3 : t * b * k * t⁻¹ = b * k := by field_simp
    have e4 : t * b * k * (1 + 1 / k * (b⁻¹ - 1)) = t * b * k + t * (1 - b) := by field_simp
    rw [e3, e4] at this
    linarith

theorem again_iff (a : ℝ) (ha : 1 < a) (k : ℕ) (hk : 0 < k) (v : ℝ) : ¬ zipfAgain a k v ↔ v ≤ zipfC a k := by
  have hb := b_gt a ha
  have ht := t_gt a ha k hk
  have hk0 : (0 : ℝ) < k := by exact_mod_cast hk
  have hd : 0 < (2 : ℝ) ^ (a - 1) * k * (zipfT a k - 1) := mul_pos (mul_pos (by linarith) hk0) (by linarith)
  unfold zipfAgain
  rw [not_lt, zipfC, le_div_iff₀ hd, div_le_div_iff₀ (by linarith) (by linarith)]
  constructor <;> intro h <;> nlinarith [h]

theorem pow_iff (a : ℝ) (ha : 1 < a) (u : ℝ) (hu : 0 < u) (w : ℝ) (hw : 0 < w) : w ≤ u ^ (-(1 / (a - 1))) ↔ u ≤ w ^ (1 - a) := by
  have e : u = (u ^ (-(1 / (a - 1)))) ^ (1 - a) := by
    rw [← Real.rpow_mul hu.le]
    have : -(1 / (a - 1)) * (1 - a) = 1 := by have : a - 1 ≠ 0 := by linarith
                                              field_simp; ring
    rw [this, Real.rpow_one]
  conv_rhs => rw [e]
  rw [Real.rpow_le_rpow_iff_of_neg (by positivity) hw (by linarith)]

theorem step_ok (M : ℕ) (a : ℝ) (ha : 1 < a) (k : ℕ) (hk : 0 < k) (hM : k < M) (u v : ℝ) (hu0 : 0 ≤ u) :
    zipfStep M a (u, v) = some (.ok k) ↔ (((k + 1 : ℕ) : ℝ) ^ (1 - a) < u ∧ u ≤ (k : ℝ) ^ (1 - a)) ∧ v ≤ zipfC a k := by
  have hk0 : (0 : ℝ) < k := by exact_mod_cast hk
  rcases hu0.eq_or_lt with h0 | h0
  · subst h0
    have : (0 : ℝ) < ((k + 1 : ℕ) : ℝ) ^ (1 - a) := by positivity
    simp only [zipfStep, zipfPow, true_or, if_true, toInt, zipfTurn, Option.some.injEq, reduceCtorEq, false_iff]
    rintro ⟨⟨h, _⟩, _⟩
    linarith
  · have e : zipfPow a u = some (u ^ (-(1 / (a - 1)))) := by rw [zipfPow, if_neg]; push Not; exact ⟨h0.ne', ha.ne'⟩
    have hp : 0 < u ^ (-(1 / (a - 1))) := by positivity
    rw [← pow_iff a ha u h0 k hk0, ← not_le, ← pow_iff a ha u h0 _ (by positivity), ← again_iff a ha k hk]
    rw [zipfStep, e]
    generalize u ^ (-(1 / (a - 1))) = w at *
    rw [not_le, toInt]
    constructor
    · intro h
      split_ifs at h with hw
      · rw [zipfTurn] at h
        split_ifs at h with hag
        have hfl : ⌊w⌋₊ = k := by simpa using h
        rw [hfl] at hag
        have := (Nat.floor_eq_iff hp.le).mp hfl
        exact ⟨⟨by push_cast; exact this.2, this.1⟩, hag⟩
      · simp [zipfTurn] at h
    · rintro ⟨⟨h1, h2⟩, h3⟩
      have hfl : ⌊w⌋₊ = k := (Nat.floor_eq_iff hp.le).mpr ⟨h2, by push_cast at h1; exact h1⟩
      have hw : w < M := lt_of_lt_of_le h1 (by exact_mod_cast hM)
      rw [if_pos hw, hfl, zipfTurn, if_neg h3]

theorem step_ub (M : ℕ) (hM : 0 < M) (a : ℝ) (ha : 1 < a) (u v : ℝ) (hu0 : 0 ≤ u) :
    zipfStep M a (u, v) = some .ub ↔ u ≤ (M : ℝ) ^ (1 - a) := by
  have hM0 : (0 : ℝ) < M := by exact_mod_cast hM
  rcases hu0.eq_or_lt with h0 | h0
  · subst h0
    simp only [zipfStep, zipfPow, true_or, if_true, toInt, zipfTurn, true_iff]
    positivity
  · have e : zipfPow a u = some (u ^ (-(1 / (a - 1)))) := by rw [zipfPow, if_neg]; push Not; exact ⟨h0.ne', ha.ne'⟩
    rw [← pow_iff a ha u h0 M hM0, zipfStep, e]
    generalize u ^ (-(1 / (a - 1))) = w at *
    rw [toInt]
    split_ifs with hw
    · rw [zipfTurn]
      constructor
      · intro h; split_ifs at h; simp at h
      · intro h; linarith
    · simp only [zipfTurn, true_iff]; exact not_lt.mp hw

theorem unit2_ok (M : ℕ) (a : ℝ) (ha : 1 < a) (k : ℕ) (hk : 0 < k) (hM : k < M) :
    unit2 {r | zipfStep M a r = some (.ok k)} = ENNReal.ofReal ((1 - (2 : ℝ) ^ (1 - a)) * (k : ℝ) ^ (-a)) := by
  have hk0 : (0 : ℝ) < k := by exact_mod_cast hk
  have hk1 : (1 : ℝ) ≤ k := by exact_mod_cast hk
  have e : {r | zipfStep M a r = some (.ok k)} =ᵐ[unit2] (Ioc (((k + 1 : ℕ) : ℝ) ^ (1 - a)) ((k : ℝ) ^ (1 - a))) ×ˢ (Iic (zipfC a k)) := by
    filter_upwards [unit2_ae] with r hr
    exact propext (step_ok M a ha k hk hM r.1 r.2 hr.1.1)
  obtain ⟨hc0, hc1⟩ := zipfC_bounds a ha k hk
  rw [measure_congr e, unit2, Measure.prod_prod, unit_Iic _ hc0 hc1, unit_Ioc _ _ (by positivity) (Real.rpow_le_one_of_one_le_of_nonpos hk1 (by linarith)), ← ENNReal.ofReal_mul']
  · congr 1
    have hb := b_gt a ha
    have ht := t_gt a ha k hk
    have e1 : ((k + 1 : ℕ) : ℝ) ^ (1 - a) = (k : ℝ) ^ (1 - a) * (zipfT a k)⁻¹ := by
      rw [zipfT, ← Real.rpow_neg (by positivity), neg_sub, ← Real.mul_rpow hk0.le (by positivity)]
      congr 1; push_cast; field_simp
    have e2 : (2 : ℝ) ^ (1 - a) = ((2 : ℝ) ^ (a - 1))⁻¹ := by rw [← Real.rpow_neg (by norm_num), neg_sub]
    have e3 : (k : ℝ) ^ (-a) = (k : ℝ) ^ (1 - a) / k := by rw [show -a = (1 - a) - 1 by ring, Real.rpow_sub_one hk0.ne']
    rw [e1, e2, e3, zipfC]
    generalize zipfT a k = t at *
    generalize (2 : ℝ) ^ (a - 1) = b at *
    generalize (k : ℝ) ^ (1 - a) = c at *
    have h1 : t - 1 ≠ 0 := by linarith
    have h2 : t ≠ 0 := by linarith
    have h3 : b ≠ 0 := by linarith
    field_simp
  · exact hc0

theorem unit2_ub (M : ℕ) (hM : 0 < M) (a : ℝ) (ha : 1 < a) : unit2 {r | zipfStep M a r = some .ub} = ENNReal.ofReal ((M : ℝ) ^ (1 - a)) := by
  have e : {r | zipfStep M a r = some .ub} =ᵐ[unit2] (Iic ((M : ℝ) ^ (1 - a))) ×ˢ univ := by
    filter_upwards [unit2_ae] with r hr
    exact propext ((step_ub M hM a ha r.1 r.2 hr.1.1).trans ⟨fun h => ⟨h, trivial⟩, fun h => h.1⟩)
  rw [measure_congr e, unit2, Measure.prod_prod, measure_univ, mul_one, unit_Iic _ (by positivity)]
  exact Real.rpow_le_one_of_one_le_of_nonpos (by exact_mod_cast hM) (by linarith)

theorem meas_pow (a : ℝ) : Measurable fun r : ℝ × ℝ => r.1 ^ (-(1 / (a - 1))) := measurable_fst.pow_const _

theorem meas_zero (a : ℝ) : MeasurableSet {r : ℝ × ℝ | r.1 = 0 ∨ a = 1} := by
  by_cases h : a = 1
  · simp [h]
  · simp only [h, or_false]; exact measurable_fst (measurableSet_singleton 0)

theorem step_cases (M : ℕ) (a : ℝ) (r : ℝ × ℝ) :
    zipfStep M a r = open Classical in if r.1 = 0 ∨ a = 1 then some .ub else if r.1 ^ (-(1 / (a - 1))) < M then (if zipfAgain a ⌊r.1 ^ (-(1 / (a - 1)))⌋₊ r.2 then none else some (.ok ⌊r.1 ^ (-(1 / (a - 1)))⌋₊)) else some .ub := by
  unfold zipfStep zipfPow
  generalize r.1 ^ (-(1 / (a - 1))) = w
  split_ifs with h1 h2 h3 <;> simp [toInt, zipfTurn, *]

theorem meas_again (a : ℝ) : MeasurableSet {r : ℝ × ℝ | zipfAgain a ⌊r.1 ^ (-(1 / (a - 1)))⌋₊ r.2} := by
  have hf : Measurable fun r : ℝ × ℝ => ⌊r.1 ^ (-(1 / (a - 1)))⌋₊ := Nat.measurable_floor.comp (meas_pow a)
  have ht : Measurable fun r : ℝ × ℝ => zipfT a ⌊r.1 ^ (-(1 / (a - 1)))⌋₊ := (measurable_of_countable (zipfT a)).comp hf
  have hc : Measurable fun r : ℝ × ℝ => ((⌊r.1 ^ (-(1 / (a - 1)))⌋₊ : ℕ) : ℝ) := (measurable_of_countable (fun n : ℕ => (n : ℝ))).comp hf
  exact measurableSet_lt (ht.div_const _) ((((measurable_snd.mul hc).mul (ht.sub_const 1))).div_const _)

theorem meas_none (M : ℕ) (a : ℝ) : MeasurableSet {r | zipfStep M a r = none} := by
  have e : {r | zipfStep M a r = none} = {r : ℝ × ℝ | r.1 = 0 ∨ a = 1}ᶜ ∩ ({r : ℝ × ℝ | r.1 ^ (-(1 / (a - 1))) < M} ∩ {r | zipfAgain a ⌊r.1 ^ (-(1 / (a - 1)))⌋₊ r.2}) := by
    ext r
    show zipfStep M a r = none ↔ ¬ (r.1 = 0 ∨ a = 1) ∧ r.1 ^ (-(1 / (a - 1))) < M ∧ zipfAgain a ⌊r.1 ^ (-(1 / (a - 1)))⌋₊ r.2
    rw [step_cases]
    generalize r.1 ^ (-(1 / (a - 1))) = w
    split_ifs <;> simp [*]
  rw [e]
  exact (meas_zero a).compl.inter ((measurableSet_lt (meas_pow a) measurable_const).inter (meas_again a))

theorem meas_ok (M : ℕ) (a : ℝ) (k : ℕ) : MeasurableSet {r | zipfStep M a r = some (.ok k)} := by
  have e : {r | zipfStep M a r = some (.ok k)} = {r : ℝ × ℝ | r.1 = 0 ∨ a = 1}ᶜ ∩ ({r : ℝ × ℝ | r.1 ^ (-(1 / (a - 1))) < M} ∩ ({r | zipfAgain a ⌊r.1 ^ (-(1 / (a - 1)))⌋₊ r.2}ᶜ ∩ {r : ℝ × ℝ | ⌊r.1 ^ (-(1 / (a - 1)))⌋₊ = k})) := by
    ext r
    show zipfStep M a r = some (.ok k) ↔ ¬ (r.1 = 0 ∨ a = 1) ∧ r.1 ^ (-(1 / (a - 1))) < M ∧ ¬ zipfAgain a ⌊r.1 ^ (-(1 / (a - 1)))⌋₊ r.2 ∧ ⌊r.1 ^ (-(1 / (a - 1)))⌋₊ = k
    rw [step_cases]
    generalize r.1 ^ (-(1 / (a - 1))) = w
    split_ifs <;> simp [*]
  rw [e]
  refine (meas_zero a).compl.inter ((measurableSet_lt (meas_pow a) measurable_const).inter ((meas_again a).compl.inter ?_))
  exact (Nat.measurable_floor.comp (meas_pow a)) (measurableSet_singleton k)

theorem meas_ub (M : ℕ) (a : ℝ) : MeasurableSet {r | zipfStep M a r = some .ub} := by
  have e : {r | zipfStep M a r = some .ub} = {r : ℝ × ℝ | r.1 = 0 ∨ a = 1} ∪ {r : ℝ × ℝ | r.1 ^ (-(1 / (a - 1))) < M}ᶜ := by
    ext r
    show zipfStep M a r = some .ub ↔ (r.1 = 0 ∨ a = 1) ∨ ¬ r.1 ^ (-(1 / (a - 1))) < M
    rw [step_cases]
    generalize r.1 ^ (-(1 / (a - 1))) = w
    split_ifs <;> simp [*]
  rw [e]
  exact (meas_zero a).union (measurableSet_lt (meas_pow a) measurable_const).compl

/-- The chance that a turn is the last. -/
noncomputable def zipfEnd (M : ℕ) (a : ℝ) : ℝ := ∑ j ∈ Finset.Ico 1 M, (1 - (2 : ℝ) ^ (1 - a)) * (j : ℝ) ^ (-a) + (M : ℝ) ^ (1 - a)

theorem two_lt (a : ℝ) (ha : 1 < a) : 0 < 1 - (2 : ℝ) ^ (1 - a) := by
  have := Real.rpow_lt_one_of_one_lt_of_neg (x := 2) (by norm_num) (by linarith : 1 - a < 0)
  linarith

theorem unit2_end (M : ℕ) (hM : 0 < M) (a : ℝ) (ha : 1 < a) : unit2 {r | zipfStep M a r ≠ none} = ENNReal.ofReal (zipfEnd M a) := by
  have e : {r | zipfStep M a r ≠ none} =ᵐ[unit2] ((⋃ j ∈ Finset.Ico 1 M, {r | zipfStep M a r = some (.ok j)}) ∪ {r | zipfStep M a r = some .ub} : Set (ℝ × ℝ)) := by
    filter_upwards [unit2_ae] with r hr
    apply propext
    show zipfStep M a r ≠ none ↔ r ∈ (⋃ j ∈ Finset.Ico 1 M, {r | zipfStep M a r = some (.ok j)}) ∨ zipfStep M a r = some .ub
    constructor
    · intro h
      have hc := step_cases M a r
      split_ifs at hc with h1 h2 h3
      · exact Or.inr hc
      · exact absurd hc h
      · left
        rw [mem_iUnion₂]
        push Not at h1
        have hu : 0 < r.1 := lt_of_le_of_ne hr.1.1 (Ne.symm h1.1)
        have hw : 1 ≤ r.1 ^ (-(1 / (a - 1))) := by
          rw [pow_iff a ha r.1 hu 1 one_pos, Real.one_rpow]; exact hr.1.2.le
        exact ⟨⌊r.1 ^ (-(1 / (a - 1)))⌋₊, Finset.mem_Ico.mpr ⟨Nat.le_floor (by exact_mod_cast hw), (Nat.floor_lt (by linarith)).mpr h2⟩, hc⟩
      · exact Or.inr hc
    · rintro (h | h)
      · rw [mem_iUnion₂] at h
        obtain ⟨j, -, hj⟩ := h
        have hj' : zipfStep M a r = some (.ok j) := hj
        rw [hj']; simp
      · rw [h]; simp
  rw [measure_congr e, measure_union _ (meas_ub M a), measure_biUnion_finset _ (fun j _ => meas_ok M a j), unit2_ub M hM a ha]
  · rw [zipfEnd, ENNReal.ofReal_add (Finset.sum_nonneg fun j _ => mul_nonneg (two_lt a ha).le (by positivity)) (by positivity), ENNReal.ofReal_sum_of_nonneg fun j _ => mul_nonneg (two_lt a ha).le (by positivity)]
    congr 1
    refine Finset.sum_congr rfl fun j hj => ?_
    have := Finset.mem_Ico.mp hj
    exact unit2_ok M a ha j (by omega) this.2
  · intro i _ j _ hij
    rw [Function.onFun, Set.disjoint_left]
    intro r h1 h2
    have h1' : zipfStep M a r = some (.ok i) := h1
    have h2' : zipfStep M a r = some (.ok j) := h2
    rw [h1'] at h2'
    simp at h2'
    exact hij h2'
  · rw [Set.disjoint_left]
    intro r h1 h2
    rw [mem_iUnion₂] at h1
    obtain ⟨j, -, hj⟩ := h1
    have hj' : zipfStep M a r = some (.ok j) := hj
    have h2' : zipfStep M a r = some .ub := h2
    rw [hj'] at h2'; simp at h2'

theorem zipfEnd_pos (M : ℕ) (hM : 0 < M) (a : ℝ) (ha : 1 < a) : 0 < zipfEnd M a := by
  have h2 : (0 : ℝ) < (M : ℝ) ^ (1 - a) := by have : (0 : ℝ) < M := by exact_mod_cast hM
                                              positivity
  have := Finset.sum_nonneg (s := Finset.Ico 1 M) (f := fun j : ℕ => (1 - (2 : ℝ) ^ (1 - a)) * (j : ℝ) ^ (-a)) fun j _ => mul_nonneg (two_lt a ha).le (by positivity)
  unfold zipfEnd
  linarith

/-! ### The claims -/

/-- C149: the loop ends. -/
theorem C149_ends (M : ℕ) (hM : 0 < M) (a : ℝ) (ha : 1 < a) : supply {ω | zipfRng M a ω = none} = 0 := by
  refine firstSome_ends unit2 (zipfStep M a) (meas_none M a) ?_
  rw [unit2_end M hM a ha]
  exact (ENNReal.ofReal_pos.mpr (zipfEnd_pos M hM a ha)).ne'

theorem law_ok (M : ℕ) (a : ℝ) (ha : 1 < a) (k : ℕ) (hk : 0 < k) (hM : k < M) :
    supply {ω | zipfRng M a ω = some (.ok k)} = ENNReal.ofReal ((1 - (2 : ℝ) ^ (1 - a)) * (k : ℝ) ^ (-a) / zipfEnd M a) := by
  have h := firstSome_law unit2 (zipfStep M a) (.ok k) (meas_ok M a k) (meas_none M a)
  rw [unit2_ok M a ha k hk hM, unit2_end M (by omega) a ha, ← ENNReal.ofReal_div_of_pos (zipfEnd_pos M (by omega) a ha)] at h
  exact h

theorem law_ub (M : ℕ) (hM : 0 < M) (a : ℝ) (ha : 1 < a) :
    supply {ω | zipfRng M a ω = some .ub} = ENNReal.ofReal ((M : ℝ) ^ (1 - a) / zipfEnd M a) := by
  have h := firstSome_law unit2 (zipfStep M a) .ub (meas_ub M a) (meas_none M a)
  rw [unit2_ub M hM a ha, unit2_end M hM a ha, ← ENNReal.ofReal_div_of_pos (zipfEnd_pos M hM a ha)] at h
  exact h

/-- C149: numbers come with probabilities in proportion to k^(−a): among the draws that don't overflow, k has the share k^(−a) / Σ j^(−a), over all the numbers an `int` has place for. -/
theorem C149_law (M : ℕ) (a : ℝ) (ha : 1 < a) (k : ℕ) (hk : 0 < k) (hM : k < M) :
    (supply {ω | zipfRng M a ω = some (.ok k)}).toReal = (k : ℝ) ^ (-a) / (∑ j ∈ Finset.Ico 1 M, (j : ℝ) ^ (-a)) * (1 - (supply {ω | zipfRng M a ω = some .ub}).toReal) := by
  have hE := zipfEnd_pos M (by omega) a ha
  have h2 := two_lt a ha
  have hS : 0 < ∑ j ∈ Finset.Ico 1 M, (j : ℝ) ^ (-a) := by
    refine Finset.sum_pos (fun j hj => ?_) ⟨k, Finset.mem_Ico.mpr ⟨hk, hM⟩⟩
    have : 0 < j := (Finset.mem_Ico.mp hj).1
    positivity
  rw [law_ok M a ha k hk hM, law_ub M (by omega) a ha, ENNReal.toReal_ofReal (by positivity), ENNReal.toReal_ofReal (by positivity)]
  have e : zipfEnd M a - (M : ℝ) ^ (1 - a) = (1 - (2 : ℝ) ^ (1 - a)) * ∑ j ∈ Finset.Ico 1 M, (j : ℝ) ^ (-a) := by
    rw [zipfEnd, ← Finset.mul_sum]; ring
  have e2 : 1 - (M : ℝ) ^ (1 - a) / zipfEnd M a = (1 - (2 : ℝ) ^ (1 - a)) * (∑ j ∈ Finset.Ico 1 M, (j : ℝ) ^ (-a)) / zipfEnd M a := by
    rw [← e]; field_simp
  rw [e2]
  field_simp

/-- C149: a draw is a whole number from one. -/
theorem C149_range (M : ℕ) (hM : 0 < M) (a : ℝ) (ha : 1 < a) : ∀ᵐ ω ∂supply, zipfRng M a ω = some .ub ∨ ∃ k, 1 ≤ k ∧ k < M ∧ zipfRng M a ω = some (.ok k) := by
  have h0 : ∀ᵐ ω ∂supply, zipfRng M a ω ≠ none := by
    rw [ae_iff]; simpa using C149_ends M hM a ha
  have h1 : ∀ᵐ ω ∂supply, ∀ n : ℕ, (0 ≤ (ω n).1 ∧ (ω n).1 < 1) ∧ 0 ≤ (ω n).2 ∧ (ω n).2 < 1 := by
    rw [ae_all_iff]
    intro n
    exact (measurePreserving_eval_infinitePi (fun _ : ℕ => unit2) n).quasiMeasurePreserving.ae unit2_ae
  filter_upwards [h0, h1] with ω h0 h1
  cases h : zipfRng M a ω with
  | none => exact absurd h h0
  | some y =>
    cases y with
    | ub => exact Or.inl rfl
    | ok k =>
      right
      obtain ⟨n, -, hn⟩ := (firstSome_eq _ _ _).mp h
      have hc := step_cases M a (ω n)
      rw [hn] at hc
      split_ifs at hc with h2 h3 h4
      · simp at hc
      · have hk : k = ⌊(ω n).1 ^ (-(1 / (a - 1)))⌋₊ := by simpa using hc
        push Not at h2
        have hu : 0 < (ω n).1 := lt_of_le_of_ne (h1 n).1.1 (Ne.symm h2.1)
        have hw : 1 ≤ (ω n).1 ^ (-(1 / (a - 1))) := by
          rw [pow_iff a ha (ω n).1 hu 1 one_pos, Real.one_rpow]; exact (h1 n).1.2.le
        exact ⟨k, hk ▸ Nat.le_floor (by exact_mod_cast hw), hk ▸ (Nat.floor_lt (by linarith)).mpr h3, rfl⟩
      · simp at hc

/-- C149: were there no bound on integers, it is the Zipf distribution, k^(−a) / ζ(a). -/
theorem C149_limit (a : ℝ) (ha : 1 < a) (k : ℕ) (hk : 0 < k) :
    Filter.Tendsto (fun M : ℕ => (supply {ω | zipfRng M a ω = some (.ok k)}).toReal) Filter.atTop (nhds ((k : ℝ) ^ (-a) / ∑' j : ℕ, ((j + 1 : ℕ) : ℝ) ^ (-a))) := by
  have hsum : Summable fun j : ℕ => (j : ℝ) ^ (-a) := Real.summable_nat_rpow.mpr (by linarith)
  have hsum1 : Summable fun j : ℕ => ((j + 1 : ℕ) : ℝ) ^ (-a) := (summable_nat_add_iff 1).mpr hsum
  have h2 := two_lt a ha
  have hpos : 0 < ∑' j : ℕ, ((j + 1 : ℕ) : ℝ) ^ (-a) := hsum1.tsum_pos (fun j => by positivity) 0 (by norm_num)
  have e : ∀ M : ℕ, k < M → (supply {ω | zipfRng M a ω = some (.ok k)}).toReal = (1 - (2 : ℝ) ^ (1 - a)) * (k : ℝ) ^ (-a) / zipfEnd M a := by
    intro M hM
    have := zipfEnd_pos M (by omega) a ha
    rw [law_ok M a ha k hk hM, ENNReal.toReal_ofReal (by positivity)]
  have hlim : Filter.Tendsto (fun M : ℕ => zipfEnd M a) Filter.atTop (nhds ((1 - (2 : ℝ) ^ (1 - a)) * (∑' j : ℕ, ((j + 1 : ℕ) : ℝ) ^ (-a)) + 0)) := by
    unfold zipfEnd
    refine Filter.Tendsto.add ?_ ?_
    · have e1 : (fun M : ℕ => ∑ j ∈ Finset.Ico 1 M, (1 - (2 : ℝ) ^ (1 - a)) * (j : ℝ) ^ (-a)) = fun M : ℕ => (1 - (2 : ℝ) ^ (1 - a)) * ∑ j ∈ Finset.range (M - 1), ((j + 1 : ℕ) : ℝ) ^ (-a) := by
        funext M
        rw [← Finset.mul_sum, Finset.sum_Ico_eq_sum_range]
        congr 1
        refine Finset.sum_congr rfl fun j _ => ?_
        rw [add_comm]
      rw [e1]
      exact (hsum1.hasSum.tendsto_sum_nat.comp (Filter.tendsto_sub_atTop_nat 1)).const_mul _
    · have := (tendsto_rpow_neg_atTop (y := a - 1) (by linarith)).comp (tendsto_natCast_atTop_atTop (R := ℝ))
      simpa [Function.comp_def] using this
  rw [add_zero] at hlim
  have h3 := (tendsto_const_nhds (x := (1 - (2 : ℝ) ^ (1 - a)) * (k : ℝ) ^ (-a))).div hlim (mul_pos h2 hpos).ne'
  have e4 : (1 - (2 : ℝ) ^ (1 - a)) * (k : ℝ) ^ (-a) / ((1 - (2 : ℝ) ^ (1 - a)) * ∑' j : ℕ, ((j + 1 : ℕ) : ℝ) ^ (-a)) = (k : ℝ) ^ (-a) / ∑' j : ℕ, ((j + 1 : ℕ) : ℝ) ^ (-a) := by
    rw [mul_div_mul_left _ _ h2.ne']
  rw [e4] at h3
  refine h3.congr' ?_
  filter_upwards [Filter.eventually_gt_atTop k] with M hM
  exact (e M hM).symm

/-- C149 (refuted): that any parameter above one is safe: with 1.1, more than one draw in sixteen is converted to `int` although it is 2³¹ or more. -/
theorem C149_overflow_refuted : ENNReal.ofReal (1 / 16) < supply {ω | zipfRng (2 ^ 31) (11 / 10) ω = some .ub} := by
  have h1 := law_ub (2 ^ 31) (by norm_num) (11 / 10) (by norm_num)
  have hE := zipfEnd_pos (2 ^ 31) (by norm_num) (11 / 10) (by norm_num)
  have hE1 : zipfEnd (2 ^ 31) (11 / 10) ≤ 1 := by
    have := unit2_end (2 ^ 31) (by norm_num) (11 / 10) (by norm_num)
    have h : ENNReal.ofReal (zipfEnd (2 ^ 31) (11 / 10)) ≤ 1 := by rw [← this]; exact prob_le_one
    exact ENNReal.ofReal_le_one.mp h
  have h2 : (1 / 16 : ℝ) < ((2 ^ 31 : ℕ) : ℝ) ^ (1 - 11 / 10 : ℝ) := by
    have e : ((2 ^ 31 : ℕ) : ℝ) ^ (1 - 11 / 10 : ℝ) = (2 : ℝ) ^ (-(31 / 10) : ℝ) := by
      rw [Nat.cast_pow, ← Real.rpow_natCast, Nat.cast_ofNat, ← Real.rpow_mul (by norm_num)]; norm_num
    have e2 : (1 / 16 : ℝ) = (2 : ℝ) ^ (-4 : ℝ) := by
      rw [Real.rpow_neg (by norm_num), show (4 : ℝ) = ((4 : ℕ) : ℝ) by norm_num, Real.rpow_natCast]; norm_num
    rw [e, e2]
    exact Real.rpow_lt_rpow_of_exponent_lt (by norm_num) (by norm_num)
  rw [h1]
  refine ENNReal.ofReal_lt_ofReal_iff_of_nonneg (by norm_num) |>.mpr (lt_of_lt_of_le h2 ?_)
  rw [le_div_iff₀ hE]
  exact mul_le_of_le_one_right (by positivity) hE1

/-- C149 (refuted): that a parameter of one, which is let through, can be drawn from: no draw has a defined result. -/
theorem C149_one_refuted (M : ℕ) (ω : ℕ → ℝ × ℝ) : zipfRng M 1 ω = some .ub := by
  refine (firstSome_eq _ _ _).mpr ⟨0, by simp, ?_⟩
  simp [zipfStep, zipfPow, toInt, zipfTurn]

/-- With a = 2, two is a quarter as frequent as one. -/
example : (supply {ω | zipfRng (2 ^ 31) 2 ω = some (.ok 2)}).toReal = (supply {ω | zipfRng (2 ^ 31) 2 ω = some (.ok 1)}).toReal / 4 := by
  rw [C149_law _ 2 (by norm_num) 2 (by norm_num) (by norm_num), C149_law _ 2 (by norm_num) 1 (by norm_num) (by norm_num)]
  have e : ((2 : ℕ) : ℝ) ^ (-2 : ℝ) = 1 / 4 := by
    rw [Real.rpow_neg (by norm_num), show (2 : ℝ) = ((2 : ℕ) : ℝ) by norm_num, Real.rpow_natCast]; norm_num
  rw [e]
  simp
  ring

end Apop.Rng
