import Verif.Rng.Zipf
import Mathlib.MeasureTheory.Integral.IntervalIntegral.FundThmCalculus
import Mathlib.MeasureTheory.Integral.IntervalIntegral.IntegrationByParts
import Mathlib.Analysis.SpecialFunctions.Pow.Deriv
import Mathlib.Analysis.SpecialFunctions.Gamma.Basic

/-! # C150: draws from the Yule distribution (model/apop_yule.c)

Uniform numbers, exact arithmetic and integers as for C149. `gsl_ran_exponential(r, 1)` is −log(1 − u) (its source). -/

namespace Apop.Rng

open MeasureTheory Set

/-- `gsl_ran_exponential(r, 1)`. -/
noncomputable def expo1 (u : ℝ) : ℝ := -Real.log (1 - u)

/-- `- e1 / log(1 - exp(-e2 / (b - 1)))`, model/apop_yule.c:67, as a number or what can't be converted to an integer (`none`): below or at b = 1 the logarithm is of a number below zero, or zero divided by. With e2 = 0 the logarithm is −∞ and the ratio zero. -/
noncomputable def yuleRatio (b : ℝ) (u1 u2 : ℝ) : Option ℝ :=
  if b = 1 then none
  else if u2 = 0 then some 0
  else if b < 1 then none
  else some (-(expo1 u1) / Real.log (1 - Real.exp (-(expo1 u2) / (b - 1))))

/-- `yule_rng`, model/apop_yule.c:64-70; `GSL_MAX(…, 0)` changes nothing as the ratio isn't negative. -/
noncomputable def yuleRng (M : ℕ) (b : ℝ) (r : ℝ × ℝ) : Res ℕ := (toInt M (yuleRatio b r.1 r.2)).bind fun x => .ok (max x 0 + 1)

/-- ∫ (1 − s^p)^k over [0, 1]. -/
noncomputable def J (p : ℝ) (k : ℕ) : ℝ := ∫ s in (0 : ℝ)..1, (1 - s ^ p) ^ k

theorem cont_pow (p : ℝ) (hp : 0 < p) : Continuous fun s : ℝ => s ^ p := Real.continuous_rpow_const hp.le

theorem J_diff (p : ℝ) (hp : 0 < p) (k : ℕ) : ∫ s in (0 : ℝ)..1, (1 - s ^ p) ^ k * s ^ p = J p k - J p (k + 1) := by
  have hc := cont_pow p hp
  rw [J, J, ← intervalIntegral.integral_sub (by apply Continuous.intervalIntegrable; fun_prop) (by apply Continuous.intervalIntegrable; fun_prop)]
  congr 1; funext s; ring

theorem J_succ (p : ℝ) (hp : 0 < p) (k : ℕ) : J p (k + 1) * (1 + (k + 1) * p) = (k + 1) * p * J p k := by
  have hc := cont_pow p hp
  have hd : ∀ s ∈ Ioo (0 : ℝ) 1, HasDerivAt (fun s : ℝ => s * (1 - s ^ p) ^ (k + 1)) ((1 - s ^ p) ^ (k + 1) - (k + 1) * p * ((1 - s ^ p) ^ k * s ^ p)) s := by
    intro s hs
    have h1 : HasDerivAt (fun s : ℝ => s ^ p) (p * s ^ (p - 1)) s := Real.hasDerivAt_rpow_const (Or.inl hs.1.ne')
    have h2 := (hasDerivAt_id s).mul ((h1.const_sub 1).pow (k + 1))
    refine h2.congr_deriv ?_
    have e : s ^ p = s * s ^ (p - 1) := by rw [Real.rpow_sub_one hs.1.ne']; field_simp [hs.1.ne']
    simp only [id, Nat.add_sub_cancel, Nat.cast_add, Nat.cast_one]
    rw [show (k + 1 : ℝ) * p * ((1 - s ^ p) ^ k * s ^ p) = (k + 1 : ℝ) * p * ((1 - s ^ p) ^ k * (s * s ^ (p - 1))) by rw [← e]]
    simp
    ring
  have hint := intervalIntegral.integral_eq_sub_of_hasDerivAt_of_le (a := 0) (b := 1) zero_le_one (by fun_prop) hd
    (by apply Continuous.intervalIntegrable; fun_prop)
  rw [intervalIntegral.integral_sub (by apply Continuous.intervalIntegrable; fun_prop) (by apply Continuous.intervalIntegrable; fun_prop), intervalIntegral.integral_const_mul, J_diff p hp k] at hint
  simp at hint
  change J p (k + 1) - (k + 1) * p * (J p k - J p (k + 1)) = 0 at hint
  linarith

theorem J_gamma (β : ℝ) (hβ : 0 < β) (k : ℕ) : J (1 / β) k = k.factorial * Real.Gamma (β + 1) / Real.Gamma (β + k + 1) := by
  induction k with
  | zero => simp [J, (Real.Gamma_pos_of_pos (by linarith : 0 < β + 1)).ne']
  | succ k ih =>
    have h := J_succ (1 / β) (by positivity) k
    have hk : (0 : ℝ) ≤ k := Nat.cast_nonneg k
    have hne : (1 + (k + 1) * (1 / β)) ≠ 0 := by positivity
    have hG := (Real.Gamma_pos_of_pos (by linarith : 0 < β + k + 1)).ne'
    rw [← eq_div_iff hne] at h
    have e : Real.Gamma (β + (k + 1 : ℕ) + 1) = (β + k + 1) * Real.Gamma (β + k + 1) := by
      rw [← Real.Gamma_add_one (by positivity)]; congr 1; push_cast; ring
    rw [h, ih, e, Nat.factorial_succ]
    push_cast
    field_simp
    ring

/-- exp(−e2/(b−1)). -/
noncomputable def yuleW (b u : ℝ) : ℝ := (1 - u) ^ (1 / (b - 1))

theorem yuleW_eq (b u : ℝ) (hu : u < 1) : Real.exp (-(expo1 u) / (b - 1)) = yuleW b u := by
  rw [yuleW, Real.rpow_def_of_pos (by linarith), expo1]; congr 1; ring

theorem yule_ok (M : ℕ) (b : ℝ) (hb : 1 < b) (k : ℕ) (hM : k < M) (u1 u2 : ℝ) (h1 : u1 < 1) (h10 : 0 ≤ u1) (h2 : u2 < 1) (h20 : 0 < u2) :
    yuleRng M b (u1, u2) = .ok (k + 1) ↔ u1 ∈ Ico (1 - (1 - yuleW b u2) ^ k) (1 - (1 - yuleW b u2) ^ (k + 1)) := by
  have hw0 : 0 < yuleW b u2 := Real.rpow_pos_of_pos (by linarith) _
  have hw1 : yuleW b u2 < 1 := Real.rpow_lt_one (by linarith) (by linarith) (by apply one_div_pos.mpr; linarith)
  have e : yuleRatio b u1 u2 = some (Real.log (1 - u1) / Real.log (1 - yuleW b u2)) := by
    rw [yuleRatio, if_neg hb.ne', if_neg h20.ne', if_neg (by linarith), yuleW_eq b u2 h2, expo1, neg_neg]
  rw [yuleRng, e]
  generalize yuleW b u2 = w at *
  have hl : Real.log (1 - w) < 0 := Real.log_neg (by linarith) (by linarith)
  have hl1 : Real.log (1 - u1) ≤ 0 := Real.log_nonpos (by linarith) (by linarith)
  have hy : 0 ≤ Real.log (1 - u1) / Real.log (1 - w) := div_nonneg_of_nonpos hl1 hl.le
  have hw' : 0 < 1 - w := by linarith
  have hu' : 0 < 1 - u1 := by linarith
  have key : ∀ j : ℕ, (j : ℝ) ≤ Real.log (1 - u1) / Real.log (1 - w) ↔ 1 - (1 - w) ^ j ≤ u1 := by
    intro j
    rw [le_div_iff_of_neg hl, ← Real.log_pow, Real.log_le_log_iff hu' (by positivity)]
    constructor <;> intro h <;> linarith
  have k1 := key k
  have k2 := key (k + 1)
  rw [mem_Ico, ← k1, ← not_le, ← k2, not_le, toInt]
  generalize Real.log (1 - u1) / Real.log (1 - w) = y at *
  constructor
  · intro h
    split_ifs at h with hw
    · simp only [Res.bind, Res.ok.injEq] at h
      have hfl : ⌊y⌋₊ = k := by simpa using h
      have := (Nat.floor_eq_iff hy).mp hfl
      exact ⟨this.1, by push_cast; exact this.2⟩
    · simp [Res.bind] at h
  · rintro ⟨h3, h4⟩
    have hfl : ⌊y⌋₊ = k := (Nat.floor_eq_iff hy).mpr ⟨h3, by push_cast at h4; exact h4⟩
    have hw : y < M := lt_of_lt_of_le h4 (by exact_mod_cast hM)
    rw [if_pos hw, hfl]
    simp [Res.bind]

theorem meas_yule (M : ℕ) (b : ℝ) (hb : 1 < b) (n : ℕ) : MeasurableSet {r | yuleRng M b r = .ok n} := by
  have hm : Measurable fun r : ℝ × ℝ => -(expo1 r.1) / Real.log (1 - Real.exp (-(expo1 r.2) / (b - 1))) := by
    unfold expo1
    refine Measurable.div ?_ ?_
    · exact (Real.measurable_log.comp (measurable_fst.const_sub 1)).neg.neg
    · exact Real.measurable_log.comp ((Real.measurable_exp.comp ((Real.measurable_log.comp (measurable_snd.const_sub 1)).neg.neg.div_const _)).const_sub 1)
  have hm2 : Measurable fun r : ℝ × ℝ => open Classical in if r.2 = 0 then (0 : ℝ) else -(expo1 r.1) / Real.log (1 - Real.exp (-(expo1 r.2) / (b - 1))) :=
    Measurable.ite (measurable_snd (measurableSet_singleton 0)) measurable_const hm
  have e : {r | yuleRng M b r = .ok n} = {r : ℝ × ℝ | (open Classical in if r.2 = 0 then (0 : ℝ) else -(expo1 r.1) / Real.log (1 - Real.exp (-(expo1 r.2) / (b - 1)))) < M} ∩ {r : ℝ × ℝ | ⌊(open Classical in if r.2 = 0 then (0 : ℝ) else -(expo1 r.1) / Real.log (1 - Real.exp (-(expo1 r.2) / (b - 1))))⌋₊ + 1 = n} := by
    ext r
    have e1 : yuleRatio b r.1 r.2 = some (open Classical in if r.2 = 0 then (0 : ℝ) else -(expo1 r.1) / Real.log (1 - Real.exp (-(expo1 r.2) / (b - 1)))) := by
      rw [yuleRatio, if_neg hb.ne', if_neg (by linarith : ¬ b < 1)]; split_ifs <;> rfl
    show yuleRng M b r = .ok n ↔ _ ∧ _
    rw [yuleRng, e1, toInt]
    show _ ↔ (open Classical in if r.2 = 0 then (0 : ℝ) else -(expo1 r.1) / Real.log (1 - Real.exp (-(expo1 r.2) / (b - 1)))) < M ∧ ⌊(open Classical in if r.2 = 0 then (0 : ℝ) else -(expo1 r.1) / Real.log (1 - Real.exp (-(expo1 r.2) / (b - 1))))⌋₊ + 1 = n
    generalize (open Classical in if r.2 = 0 then (0 : ℝ) else -(expo1 r.1) / Real.log (1 - Real.exp (-(expo1 r.2) / (b - 1)))) = y
    split_ifs with h <;> simp [Res.bind, h]
  rw [e]
  exact (measurableSet_lt hm2 measurable_const).inter (((Nat.measurable_floor.comp hm2).add_const 1) (measurableSet_singleton n))

theorem unit_Ico (p q : ℝ) (hp : 0 ≤ p) (hq : q ≤ 1) : unit (Ico p q) = ENNReal.ofReal (q - p) := by
  rw [unit, Measure.restrict_apply measurableSet_Ico, Ico_inter_Ico, sup_eq_left.mpr hp, inf_eq_left.mpr hq, Real.volume_Ico]

/-! ### The claims -/

/-- C150: a draw is n with the probability (b−1) Γ(b) Γ(n) / Γ(n+b), for every n an `int` has place for. -/
theorem C150_law (M : ℕ) (b : ℝ) (hb : 1 < b) (n : ℕ) (hn : 0 < n) (hM : n ≤ M) :
    unit2 {r | yuleRng M b r = .ok n} = ENNReal.ofReal ((b - 1) * Real.Gamma b * Real.Gamma n / Real.Gamma (n + b)) := by
  obtain ⟨k, rfl⟩ : ∃ k, n = k + 1 := ⟨n - 1, by omega⟩
  rw [unit2, Measure.prod_apply_symm (meas_yule M b hb (k + 1))]
  have hp : 0 < 1 / (b - 1) := by apply one_div_pos.mpr; linarith
  have hc : Continuous fun u : ℝ => (1 - yuleW b u) ^ k * yuleW b u := by
    have : Continuous (yuleW b) := (cont_pow _ hp).comp (by fun_prop)
    fun_prop
  have hae : ∀ᵐ u ∂unit, unit ((fun x => (x, u)) ⁻¹' {r | yuleRng M b r = .ok (k + 1)}) = ENNReal.ofReal ((1 - yuleW b u) ^ k * yuleW b u) := by
    have h0 : ∀ᵐ u ∂unit, u ∈ Ioo (0 : ℝ) 1 := by
      rw [unit, Measure.restrict_congr_set Ioo_ae_eq_Ico.symm]
      exact ae_restrict_mem measurableSet_Ioo
    have h0' : ∀ᵐ u ∂unit, u ∈ Ico (0 : ℝ) 1 := ae_restrict_mem measurableSet_Ico
    filter_upwards [h0] with u hu
    have hw0 : 0 < yuleW b u := Real.rpow_pos_of_pos (by linarith [hu.2]) _
    have hw1 : yuleW b u < 1 := Real.rpow_lt_one (by linarith [hu.2]) (by linarith [hu.1]) hp
    have e : ((fun x => (x, u)) ⁻¹' {r | yuleRng M b r = .ok (k + 1)}) =ᵐ[unit] Ico (1 - (1 - yuleW b u) ^ k) (1 - (1 - yuleW b u) ^ (k + 1)) := by
      filter_upwards [h0'] with x hx
      exact propext (yule_ok M b hb k (by omega) x u hx.2 hx.1 hu.2 hu.1)
    have hpk : (1 - yuleW b u) ^ k ≤ 1 := pow_le_one₀ (by linarith) (by linarith)
    have hpk1 : 0 ≤ (1 - yuleW b u) ^ (k + 1) := pow_nonneg (by linarith) _
    rw [measure_congr e, unit_Ico _ _ (by linarith) (by linarith)]
    congr 1; ring
  rw [lintegral_congr_ae hae, ← ofReal_integral_eq_lintegral_ofReal]
  · congr 1
    have e1 : ∫ u, (1 - yuleW b u) ^ k * yuleW b u ∂unit = ∫ u in (0 : ℝ)..1, (1 - yuleW b u) ^ k * yuleW b u := by
      rw [intervalIntegral.integral_of_le zero_le_one, unit, Measure.restrict_congr_set Ico_ae_eq_Ioc]
    have e2 : ∫ u in (0 : ℝ)..1, (1 - yuleW b u) ^ k * yuleW b u = ∫ s in (0 : ℝ)..1, (1 - s ^ (1 / (b - 1))) ^ k * s ^ (1 / (b - 1)) := by
      have := intervalIntegral.integral_comp_sub_left (a := 0) (b := 1) (fun s : ℝ => (1 - s ^ (1 / (b - 1))) ^ k * s ^ (1 / (b - 1))) 1
      simpa [yuleW] using this
    have hβ : 0 < b - 1 := by linarith
    rw [e1, e2, J_diff _ hp, J_gamma _ hβ, J_gamma _ hβ]
    have hk : (0 : ℝ) ≤ k := Nat.cast_nonneg k
    have eG : Real.Gamma (b - 1 + (k + 1 : ℕ) + 1) = (b + k) * Real.Gamma (b - 1 + k + 1) := by
      rw [show b - 1 + ((k + 1 : ℕ) : ℝ) + 1 = (b + k) + 1 by push_cast; ring, Real.Gamma_add_one (by positivity)]; congr 2; ring
    have eG2 : Real.Gamma ((k + 1 : ℕ) + b) = (b + k) * Real.Gamma (b - 1 + k + 1) := by
      rw [← eG]; congr 1; push_cast; ring
    have eF : Real.Gamma ((k + 1 : ℕ) : ℝ) = k.factorial := by push_cast; exact Real.Gamma_nat_eq_factorial k
    have hG : Real.Gamma (b - 1 + k + 1) ≠ 0 := (Real.Gamma_pos_of_pos (by linarith)).ne'
    rw [eG, eG2, eF, show b - 1 + 1 = b by ring, Nat.factorial_succ]
    have hbk : b + k ≠ 0 := by positivity
    push_cast
    field_simp
    ring
  · rw [unit]
    exact (hc.integrableOn_Icc (a := 0) (b := 1)).mono_set Ico_subset_Icc_self
  · filter_upwards [ae_restrict_mem (μ := volume) measurableSet_Ico] with u hu
    have hw0 : 0 < yuleW b u := Real.rpow_pos_of_pos (by linarith [hu.2]) _
    have hw1 : yuleW b u ≤ 1 := Real.rpow_le_one (by linarith [hu.2]) (by linarith [hu.1]) hp.le
    exact mul_nonneg (pow_nonneg (by linarith) _) hw0.le

/-- C150 (refuted): that the parameter is checked: at one no draw has a defined result, and below one almost none. -/
theorem C150_parameter_refuted (M : ℕ) (r : ℝ × ℝ) : yuleRng M 1 r = .ub ∧ ∀ b < 1, r.2 ≠ 0 → yuleRng M b r = .ub := by
  constructor
  · simp [yuleRng, yuleRatio, toInt, Res.bind]
  · intro b hb h
    simp [yuleRng, yuleRatio, toInt, Res.bind, hb, hb.ne, h]

/-- With b = 2 half of all draws are one. -/
example : unit2 {r | yuleRng (2 ^ 31) 2 r = .ok 1} = ENNReal.ofReal (1 / 2) := by
  rw [C150_law _ 2 (by norm_num) 1 (by norm_num) (by norm_num)]
  congr 1
  have h2 : Real.Gamma 2 = 1 := by have := Real.Gamma_nat_eq_factorial 1; rw [show ((1 : ℕ) : ℝ) + 1 = 2 by norm_num] at this; simpa using this
  have h3 : Real.Gamma 3 = 2 := by have := Real.Gamma_nat_eq_factorial 2; rw [show ((2 : ℕ) : ℝ) + 1 = 3 by norm_num] at this; simpa using this
  norm_num [h2, h3]

end Apop.Rng
