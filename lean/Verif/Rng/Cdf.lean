import Verif.Rng.Yule
import Verif.Dist.LogLik
import Mathlib.Probability.Distributions.Gaussian.Real
import Mathlib.Analysis.SpecialFunctions.Integrals.Basic

/-! # C151: distribution functions and draws of the stock models belong together

(model/apop_uniform.c, apop_exponential.c, apop_bernoulli.c, apop_normal.c, apop_t.c)

`gsl_rng_uniform` as for C149. `gsl_ran_gaussian(r, σ)` has the normal law with variance σ², `gsl_cdf_gaussian_P` is its distribution function; `gsl_ran_exponential`, `gsl_cdf_exponential_P` and `gsl_cdf_lognormal_P` by their sources; for the t distribution `gsl_ran_tdist` has some law and `gsl_cdf_tdist_P` is its distribution function. -/

namespace Apop.Rng

open MeasureTheory Set ProbabilityTheory Apop.Dist

/-- `apop_data_get(d, 0, vsize ? -1 : 0)`, as at model/apop_exponential.c:62: the first number of the vector, or of the matrix without one. -/
def point (d : D) : Res ℝ :=
  match d.vec with
  | some (x :: _) => .ok x
  | _ => match d.mat with
    | none => .ub
    | some m => (rd m.rows 0).bind fun r => rd r 0

/-- `unif_cdf`, model/apop_uniform.c:55-64. -/
noncomputable def unifCdf (min max : ℝ) (d : D) : Res ℝ :=
  (point d).bind fun val => .ok (if val ≤ min then 0 else if val ≥ max then 1 else (val - min) / (max - min))

/-- `uniform_rng`, model/apop_uniform.c:66-69. -/
def uniformRng (min max u : ℝ) : ℝ := u * (max - min) + min

/-- `expo_cdf`, model/apop_exponential.c:59-65; `gsl_cdf_exponential_P` is zero below zero. -/
noncomputable def expoCdf (mu : ℝ) (d : D) : Res ℝ :=
  (point d).bind fun val => .ok (if val < 0 then 0 else 1 - Real.exp (-(val / mu)))

/-- `exponential_rng`, model/apop_exponential.c:68-71. -/
noncomputable def exponentialRng (mu u : ℝ) : ℝ := mu * expo1 u

/-- `bernoulli_cdf`, model/apop_bernoulli.c:55-66, but for NaN. -/
noncomputable def bernoulliCdf (p : ℝ) (d : D) : Res ℝ := (point d).bind fun val => .ok (if val < 0 then 0 else if val < 1 then 1 - p else 1)

/-- `bernoulli_rng`, model/apop_bernoulli.c:50-53. -/
noncomputable def bernoulliRng (p u : ℝ) : ℝ := if u < p then 1 else 0

/-- The law of `gsl_ran_gaussian(r, σ)`. -/
noncomputable def gauss (sd : ℝ) : Measure ℝ := gaussianReal 0 (sd ^ 2).toNNReal

/-- `gsl_cdf_gaussian_P(x, σ)`. -/
noncomputable def gaussP (x sd : ℝ) : ℝ := (gauss sd (Iic x)).toReal

/-- `normal_cdf`, model/apop_normal.c:99-106. -/
noncomputable def normalCdf (mu sd : ℝ) (d : D) : Res ℝ := (point d).bind fun val => .ok (gaussP (val - mu) sd)

/-- `normal_rng`, model/apop_normal.c:136-139; `z` is what `gsl_ran_gaussian` gives. -/
def normalRng (mu z : ℝ) : ℝ := z + mu

/-- `lognormal_cdf`, model/apop_normal.c:208-215; `gsl_cdf_lognormal_P(x, ζ, σ)` is `gsl_cdf_ugaussian_P((log x − ζ)/σ)`. For a number above zero. -/
noncomputable def lognormalCdf (mu sd : ℝ) (d : D) : Res ℝ := (point d).bind fun val => .ok (gaussP ((Real.log val - mu) / sd) 1)

/-- `lognormal_rng`, model/apop_normal.c:239-242. -/
noncomputable def lognormalRng (mu z : ℝ) : ℝ := Real.exp (z + mu)

/-- `apop_t_dist_cdf`, model/apop_t.c:49-56; `T` is the law of `gsl_ran_tdist`. -/
noncomputable def tCdf (T : ℝ → Measure ℝ) (mu sigma df : ℝ) (d : D) : Res ℝ := (point d).bind fun val => .ok (T df (Iic ((val - mu) / sigma))).toReal

/-- `apop_t_dist_draw`, model/apop_t.c:40-47. -/
def tDraw (mu sigma z : ℝ) : ℝ := z * sigma + mu

/-! ### The claims -/

/-- C151: the point is the first of all the numbers, the vector's coming first. -/
theorem C151_point (d : D) (hw : d.WF) (x : ℝ) (h : d.cells.head? = some x) : point d = .ok x := by
  obtain ⟨vec, mat⟩ := d
  have hmat : ∀ m : Mat ℝ, m.WF → m.rows.flatten.head? = some x → ((rd m.rows 0).bind fun r => rd r 0) = .ok x := by
    rintro ⟨rows, c⟩ hm hh
    cases rows with
    | nil => simp at hh
    | cons r l =>
      cases r with
      | nil =>
        exfalso
        have hc : c = 0 := (hm [] (by simp)).symm
        have : (([] : List ℝ) :: l).flatten = [] := by
          rw [List.flatten_eq_nil_iff]
          intro q hq
          have := hm q hq
          rw [show (Mat.mk ([] :: l) c).cols = c from rfl, hc] at this
          exact List.length_eq_zero_iff.mp this
        change (([] : List ℝ) :: l).flatten.head? = some x at hh
        rw [this] at hh; simp at hh
      | cons y r => simpa [rd, Res.bind] using hh
  unfold D.cells at h
  unfold point
  cases vec with
  | none =>
    cases mat with
    | none => simp at h
    | some m => exact hmat m (hw m rfl) (by simpa using h)
  | some v =>
    cases v with
    | nil =>
      cases mat with
      | none => simp at h
      | some m => exact hmat m (hw m rfl) (by simpa using h)
    | cons y v => simpa using h

/-- C151 (uniform): the chance that a draw is at most x is the distribution function at x, x being the first number of the data; draws are at least the minimum and below the maximum. -/
theorem C151_uniform (a b : ℝ) (hab : a < b) (d : D) (x : ℝ) (hx : point d = .ok x) :
    ∃ c, unifCdf a b d = .ok c ∧ 0 ≤ c ∧ c ≤ 1 ∧ unit {u | uniformRng a b u ≤ x} = ENNReal.ofReal c ∧ ∀ᵐ u ∂unit, a ≤ uniformRng a b u ∧ uniformRng a b u < b := by
  have hd : 0 < b - a := by linarith
  have hset : {u | uniformRng a b u ≤ x} = Iic ((x - a) / (b - a)) := by
    ext u; show u * (b - a) + a ≤ x ↔ u ≤ (x - a) / (b - a); rw [le_div_iff₀ hd]; constructor <;> intro h <;> linarith
  have hr : ∀ᵐ u ∂unit, a ≤ uniformRng a b u ∧ uniformRng a b u < b := by
    have h0 : ∀ᵐ u ∂unit, u ∈ Ico (0 : ℝ) 1 := ae_restrict_mem measurableSet_Ico
    filter_upwards [h0] with u hu
    unfold uniformRng
    constructor
    · nlinarith [hu.1]
    · nlinarith [hu.2]
  unfold unifCdf
  rw [hx]
  refine ⟨_, rfl, ?_, ?_, ?_, hr⟩
  · split_ifs with h1 h2
    · exact le_refl _
    · exact zero_le_one
    · exact div_nonneg (by linarith) hd.le
  · split_ifs with h1 h2
    · exact zero_le_one
    · exact le_refl _
    · rw [div_le_one hd]; linarith
  · rw [hset]
    split_ifs with h1 h2
    · rw [ENNReal.ofReal_zero]
      have : unit (Iic ((x - a) / (b - a))) ≤ unit (Iic 0) := measure_mono (Iic_subset_Iic.mpr (div_nonpos_of_nonpos_of_nonneg (by linarith) hd.le))
      rw [unit_Iic 0 le_rfl zero_le_one, ENNReal.ofReal_zero] at this
      exact le_antisymm this zero_le
    · have : unit (Iic 1) ≤ unit (Iic ((x - a) / (b - a))) := measure_mono (Iic_subset_Iic.mpr (by rw [one_le_div hd]; linarith))
      rw [unit_Iic 1 zero_le_one le_rfl] at this
      exact le_antisymm (by rw [ENNReal.ofReal_one]; exact prob_le_one) this
    · exact unit_Iic _ (div_nonneg (by linarith) hd.le) (by rw [div_le_one hd]; linarith)

/-- C151 (uniform): and the integral of the density that the likelihood uses. -/
theorem C151_uniform_density (a b : ℝ) (hab : a < b) (d : D) (x : ℝ) (hx : point d = .ok x) (h1 : a ≤ x) (h2 : x ≤ b) :
    unifCdf a b d = .ok (∫ t in a..x, unifPdf a b t) := by
  have e : ∫ t in a..x, unifPdf a b t = ∫ t in a..x, 1 / (b - a) := by
    refine intervalIntegral.integral_congr fun t ht => ?_
    rw [uIcc_of_le h1] at ht
    simp only [unifPdf, if_pos (⟨ht.1, ht.2.trans h2⟩ : a ≤ t ∧ t ≤ b)]
  rw [e, intervalIntegral.integral_const, smul_eq_mul, unifCdf, hx]
  have hd : b - a ≠ 0 := by linarith
  show Res.ok _ = Res.ok _
  congr 1
  split_ifs with h3 h4
  · have : x = a := le_antisymm h3 h1
    rw [this]; simp
  · have : x = b := le_antisymm h2 h4
    rw [this]; field_simp
  · ring

/-- C151 (exponential): the chance that a draw is at most x is the distribution function at x. -/
theorem C151_exponential (mu : ℝ) (hmu : 0 < mu) (d : D) (x : ℝ) (hx : point d = .ok x) :
    ∃ c, expoCdf mu d = .ok c ∧ 0 ≤ c ∧ c ≤ 1 ∧ unit {u | exponentialRng mu u ≤ x} = ENNReal.ofReal c := by
  have h0 : ∀ᵐ u ∂unit, u ∈ Ico (0 : ℝ) 1 := ae_restrict_mem measurableSet_Ico
  unfold expoCdf
  rw [hx]
  refine ⟨_, rfl, ?_, ?_, ?_⟩
  · split_ifs with h
    · exact le_refl _
    · have : Real.exp (-(x / mu)) ≤ 1 := Real.exp_le_one_iff.mpr (by have := div_nonneg (not_lt.mp h) hmu.le; linarith)
      linarith
  · split_ifs with h
    · exact zero_le_one
    · have := Real.exp_pos (-(x / mu)); linarith
  · have key : ∀ u ∈ Ico (0 : ℝ) 1, exponentialRng mu u ≤ x ↔ u ≤ 1 - Real.exp (-(x / mu)) := by
      intro u hu
      have hu' : 0 < 1 - u := by linarith [hu.2]
      unfold exponentialRng expo1
      rw [mul_comm, ← le_div_iff₀ hmu, neg_le, Real.le_log_iff_exp_le hu']
      constructor <;> intro h <;> linarith
    have e : {u | exponentialRng mu u ≤ x} =ᵐ[unit] Iic (1 - Real.exp (-(x / mu))) := by
      filter_upwards [h0] with u hu
      exact propext (key u hu)
    rw [measure_congr e]
    split_ifs with h
    · have hneg : 1 - Real.exp (-(x / mu)) ≤ 0 := by
        have : 1 ≤ Real.exp (-(x / mu)) := Real.one_le_exp (by have := div_neg_of_neg_of_pos h hmu; linarith)
        linarith
      have : unit (Iic (1 - Real.exp (-(x / mu)))) ≤ unit (Iic 0) := measure_mono (Iic_subset_Iic.mpr hneg)
      rw [unit_Iic 0 le_rfl zero_le_one, ENNReal.ofReal_zero] at this
      rw [ENNReal.ofReal_zero]
      exact le_antisymm this zero_le
    · have : Real.exp (-(x / mu)) ≤ 1 := Real.exp_le_one_iff.mpr (by have := div_nonneg (not_lt.mp h) hmu.le; linarith)
      exact unit_Iic _ (by linarith) (by have := Real.exp_pos (-(x / mu)); linarith)

/-- C151 (exponential): and the integral of the density. -/
theorem C151_exponential_density (mu : ℝ) (d : D) (x : ℝ) (hx : point d = .ok x) (h1 : 0 ≤ x) :
    expoCdf mu d = .ok (∫ t in (0 : ℝ)..x, 1 / mu * Real.exp (-(t / mu))) := by
  have hd : ∀ t ∈ uIcc 0 x, HasDerivAt (fun t => -Real.exp (-(t / mu))) (1 / mu * Real.exp (-(t / mu))) t := by
    intro t _
    have h : HasDerivAt (fun t : ℝ => -(t / mu)) (-(1 / mu)) t := ((hasDerivAt_id t).div_const mu).neg
    refine h.exp.neg.congr_deriv ?_
    ring
  rw [intervalIntegral.integral_eq_sub_of_hasDerivAt hd (by apply Continuous.intervalIntegrable; fun_prop), expoCdf, hx]
  show Res.ok _ = Res.ok _
  rw [if_neg (by linarith)]
  congr 1
  simp
  ring

/-- C151 (Bernoulli): a draw is zero or one, one with probability p, and the chance that it is at most x is the distribution function at x. -/
theorem C151_bernoulli (p : ℝ) (hp0 : 0 ≤ p) (hp1 : p ≤ 1) (d : D) (x : ℝ) (hx : point d = .ok x) :
    (∀ u, bernoulliRng p u = 0 ∨ bernoulliRng p u = 1) ∧ unit {u | bernoulliRng p u = 1} = ENNReal.ofReal p ∧
      ∃ c, bernoulliCdf p d = .ok c ∧ 0 ≤ c ∧ c ≤ 1 ∧ unit {u | bernoulliRng p u ≤ x} = ENNReal.ofReal c := by
  have h01 : ∀ u, bernoulliRng p u = 0 ∨ bernoulliRng p u = 1 := fun u => by unfold bernoulliRng; split_ifs <;> simp
  have hone : unit {u | bernoulliRng p u = 1} = ENNReal.ofReal p := by
    have e : {u | bernoulliRng p u = 1} = Iio p := by
      ext u; show bernoulliRng p u = 1 ↔ u < p; unfold bernoulliRng; split_ifs with h <;> simp [h]
    rw [e, measure_congr (Iio_ae_eq_Iic' (by rw [unit, Measure.restrict_apply (measurableSet_singleton p)]; exact measure_mono_null inter_subset_left (by simp)))]
    exact unit_Iic p hp0 hp1
  refine ⟨h01, hone, ?_⟩
  unfold bernoulliCdf
  rw [hx]
  refine ⟨_, rfl, ?_, ?_, ?_⟩
  · split_ifs <;> linarith
  · split_ifs <;> linarith
  · split_ifs with h1 h2
    · have : {u | bernoulliRng p u ≤ x} = ∅ := by
        ext u; show bernoulliRng p u ≤ x ↔ False
        rcases h01 u with h | h <;> rw [h] <;> simp <;> linarith
      rw [this]; simp
    · have : {u | bernoulliRng p u ≤ x} = {u | bernoulliRng p u = 1}ᶜ := by
        ext u; show bernoulliRng p u ≤ x ↔ ¬ bernoulliRng p u = 1
        rcases h01 u with h | h <;> rw [h] <;> simp <;> linarith
      have hm : MeasurableSet {u | bernoulliRng p u = 1} := by
        have e : {u | bernoulliRng p u = 1} = Iio p := by
          ext u; show bernoulliRng p u = 1 ↔ u < p; unfold bernoulliRng; split_ifs with h <;> simp [h]
        rw [e]; exact measurableSet_Iio
      rw [this, prob_compl_eq_one_sub hm, hone, ENNReal.ofReal_sub _ hp0, ENNReal.ofReal_one]
    · have : {u | bernoulliRng p u ≤ x} = univ := by
        ext u; show bernoulliRng p u ≤ x ↔ True
        rcases h01 u with h | h <;> rw [h] <;> simp <;> linarith
      rw [this]; simp

theorem prob_ofReal {μ : Measure ℝ} [IsProbabilityMeasure μ] (s : Set ℝ) : μ s = ENNReal.ofReal (μ s).toReal := (ENNReal.ofReal_toReal (measure_ne_top μ s)).symm

instance (sd : ℝ) : IsProbabilityMeasure (gauss sd) := by unfold gauss; infer_instance

/-- C151 (normal): draws have the normal law with mean μ and variance σ², and the chance that one is at most x is the distribution function at x. -/
theorem C151_normal (mu sd : ℝ) (d : D) (x : ℝ) (hx : point d = .ok x) :
    (gauss sd).map (normalRng mu) = gaussianReal mu (sd ^ 2).toNNReal ∧ ∃ c, normalCdf mu sd d = .ok c ∧ gauss sd {z | normalRng mu z ≤ x} = ENNReal.ofReal c := by
  constructor
  · have := gaussianReal_map_add_const (μ := 0) (v := (sd ^ 2).toNNReal) mu
    rw [zero_add] at this
    exact this
  · refine ⟨_, by unfold normalCdf; rw [hx]; rfl, ?_⟩
    have e : {z | normalRng mu z ≤ x} = Iic (x - mu) := by
      ext z; show z + mu ≤ x ↔ z ≤ x - mu; constructor <;> intro h <;> linarith
    rw [e, gaussP]
    exact prob_ofReal _

/-- C151 (lognormal): for a positive x likewise. -/
theorem C151_lognormal (mu sd : ℝ) (hsd : 0 < sd) (d : D) (x : ℝ) (hx : point d = .ok x) (hx0 : 0 < x) :
    ∃ c, lognormalCdf mu sd d = .ok c ∧ gauss sd {z | lognormalRng mu z ≤ x} = ENNReal.ofReal c := by
  refine ⟨_, by unfold lognormalCdf; rw [hx]; rfl, ?_⟩
  have e : {z | lognormalRng mu z ≤ x} = Iic (Real.log x - mu) := by
    ext z; show Real.exp (z + mu) ≤ x ↔ z ≤ Real.log x - mu
    rw [← Real.le_log_iff_exp_le hx0]; constructor <;> intro h <;> linarith
  have hm : (gauss 1).map (fun z => sd * z) = gauss sd := by
    unfold gauss
    rw [gaussianReal_map_const_mul]
    congr 1
    · simp
    · ext; simp [Real.toNNReal_of_nonneg (sq_nonneg sd)]
  rw [e, gaussP, ← prob_ofReal, ← hm, Measure.map_apply (by fun_prop) measurableSet_Iic]
  congr 1
  ext z
  show sd * z ≤ Real.log x - mu ↔ z ≤ (Real.log x - mu) / sd
  rw [le_div_iff₀ hsd, mul_comm]

/-- C151 (t): likewise, σ being positive. -/
theorem C151_t (T : ℝ → Measure ℝ) (hT : ∀ df, IsProbabilityMeasure (T df)) (mu sigma df : ℝ) (hs : 0 < sigma) (d : D) (x : ℝ) (hx : point d = .ok x) :
    ∃ c, tCdf T mu sigma df d = .ok c ∧ T df {z | tDraw mu sigma z ≤ x} = ENNReal.ofReal c := by
  refine ⟨_, by unfold tCdf; rw [hx]; rfl, ?_⟩
  have e : {z | tDraw mu sigma z ≤ x} = Iic ((x - mu) / sigma) := by
    ext z; show z * sigma + mu ≤ x ↔ z ≤ (x - mu) / sigma
    rw [le_div_iff₀ hs]; constructor <;> intro h <;> linarith
  rw [e]
  exact prob_ofReal _

/-- C151: data without a number are read out of bounds. -/
theorem C151_no_data_refuted (a b : ℝ) : unifCdf a b ⟨none, none⟩ = .ub := rfl

/-- Three quarters of the way from 2 to 6; the matrix isn't looked at. -/
example : unifCdf 2 6 ⟨some [5, 100], some ⟨[[3]], 1⟩⟩ = .ok (3 / 4) := by
  show Res.ok _ = _
  norm_num

end Apop.Rng
