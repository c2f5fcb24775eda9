import Verif.Dist.Moments
import Mathlib.Probability.Distributions.Beta
import Mathlib.Probability.Distributions.Gamma
import Mathlib.Probability.Distributions.Gaussian.Real
import Mathlib.MeasureTheory.Integral.Bochner.ContinuousLinearMap

/-! # C179: the moments of the Beta, Gamma and Lognormal distributions, and the functions that go by them

`apop_beta_from_mean_var`, `beta_estimate`, `gamma_estimate`, `lognormal_estimate`, `lognormal_predict`; means and variances are integrals by the distributions' own measures. -/

namespace Apop.Dist
open Real Stats MeasureTheory ProbabilityTheory
open scoped ENNReal

/-! ## The models -/

/-- `apop_beta_from_mean_var`, apop_asst.m4.c:324-334: α and β, or the error 'r'. -/
noncomputable def betaFromMeanVar (m v : ℝ) : Except Char (ℝ × ℝ) :=
  if 1 ≤ m ∨ m ≤ 0 then .error 'r'
  else .ok (m * (m * (1 - m) / v - 1), (m * (1 - m) / v - 1) * (1 - m))

/-- The data with the logs of its numbers: the copy of `lognormal_estimate`, model/apop_normal.c:185-195. -/
noncomputable def D.logs (d : D) : D := ⟨d.vec.map (List.map log), d.mat.map fun m => ⟨m.rows.map (List.map log), m.cols⟩⟩

/-- `lognormal_estimate`, model/apop_normal.c:184-206: μ and σ (`none`: NaN); the error 'd' without a vector and a matrix. `get_mu_var` is `muVar`. -/
noncomputable def lognormalEst (d : D) : Res (Except Char (ℝ × Option ℝ)) :=
  if d.vec.isNone ∧ d.mat.isNone then .ok (.error 'd')
  else
    match muVar d.logs with
    | .ub => .ub
    | .ok (mean, var) => .ok (.ok (mean, var.map fun v => if v < 0 then 0 else sqrt v))

/-- `lognormal_predict`, model/apop_normal.c:219-224. -/
noncomputable def lognormalPredict (mu sd : ℝ) : ℝ := exp (mu + sd ^ 2 / 2)

/-- `lognormal_rng`, model/apop_normal.c:239-242, for a draw of a standard normal. -/
noncomputable def lognormalDraw (mu sd z : ℝ) : ℝ := exp (sd * z + mu)

/-! ## Specification -/

/-- The distribution has mean `m` and variance `v`. -/
def HasMoments (P : Measure ℝ) (m v : ℝ) : Prop :=
  IsProbabilityMeasure P ∧ Integrable (fun x => x) P ∧ ∫ x, x ∂P = m ∧ Integrable (fun x => (x - m) ^ 2) P ∧ ∫ x, (x - m) ^ 2 ∂P = v

/-! ## Lemmas -/

/-- A density. -/
structure IsDensity (p : ℝ → ℝ≥0∞) : Prop where
  meas : Measurable p
  fin : ∀ x, p x < ∞
  one : ∫⁻ x, p x = 1

theorem IsDensity.integrable {p : ℝ → ℝ≥0∞} (h : IsDensity p) : Integrable (fun x => (p x).toReal) :=
  integrable_toReal_of_lintegral_ne_top h.meas.aemeasurable (by rw [h.one]; exact ENNReal.one_ne_top)

theorem IsDensity.integral {p : ℝ → ℝ≥0∞} (h : IsDensity p) : ∫ x, (p x).toReal = 1 := by
  rw [integral_toReal h.meas.aemeasurable (Filter.Eventually.of_forall h.fin), h.one]
  rfl

/-- If `x p(x) = c q(x)` and `x q(x) = c' r(x)`, the mean is `c` and the variance `c c' - c²`. -/
theorem moments_of_shift {p q r : ℝ → ℝ≥0∞} (hp : IsDensity p) (hq : IsDensity q) (hr : IsDensity r) {c c' : ℝ} (h1 : ∀ x, (p x).toReal * x = c * (q x).toReal)
    (h2 : ∀ x, (q x).toReal * x = c' * (r x).toReal) : HasMoments (volume.withDensity p) c (c * c' - c ^ 2) := by
  have hfin : ∀ᵐ x : ℝ, p x < ∞ := Filter.Eventually.of_forall hp.fin
  have e : ∀ x, (p x).toReal * (x - c) ^ 2 = c * c' * (r x).toReal - 2 * c ^ 2 * (q x).toReal + c ^ 2 * (p x).toReal := by
    intro x
    have a := h1 x
    have b := h2 x
    have : (p x).toReal * (x - c) ^ 2 = ((p x).toReal * x) * x - 2 * c * ((p x).toReal * x) + c ^ 2 * (p x).toReal := by ring
    rw [this, a, mul_assoc c, b]
    ring
  have ir := hr.integrable.const_mul (c * c')
  have iq := hq.integrable.const_mul (2 * c ^ 2)
  have ip := hp.integrable.const_mul (c ^ 2)
  refine ⟨⟨?_⟩, ?_, ?_, ?_, ?_⟩
  · rw [withDensity_apply _ MeasurableSet.univ, Measure.restrict_univ, hp.one]
  · rw [integrable_withDensity_iff hp.meas hfin]
    have : (fun x => x * (p x).toReal) = fun x => c * (q x).toReal := by funext x; rw [mul_comm]; exact h1 x
    rw [this]
    exact hq.integrable.const_mul c
  · rw [integral_withDensity_eq_integral_toReal_smul hp.meas hfin]
    simp only [smul_eq_mul, h1]
    rw [integral_const_mul, hq.integral, mul_one]
  · rw [integrable_withDensity_iff hp.meas hfin]
    have : (fun x => (x - c) ^ 2 * (p x).toReal) = fun x => c * c' * (r x).toReal - 2 * c ^ 2 * (q x).toReal + c ^ 2 * (p x).toReal := by funext x; rw [mul_comm]; exact e x
    rw [this]
    exact (ir.sub iq).add ip
  · rw [integral_withDensity_eq_integral_toReal_smul hp.meas hfin]
    simp only [smul_eq_mul, e]
    have i1 : Integrable (fun x => c * c' * (r x).toReal - 2 * c ^ 2 * (q x).toReal) volume := ir.sub iq
    rw [integral_add i1 ip, integral_sub ir iq, integral_const_mul, integral_const_mul, integral_const_mul, hp.integral, hq.integral, hr.integral]
    ring

theorem beta_isDensity {a b : ℝ} (ha : 0 < a) (hb : 0 < b) : IsDensity (betaPDF a b) :=
  ⟨(measurable_betaPDFReal a b).ennreal_ofReal, fun _ => ENNReal.ofReal_lt_top, lintegral_betaPDF_eq_one ha hb⟩

theorem betaPDF_toReal {a b : ℝ} (ha : 0 < a) (hb : 0 < b) (x : ℝ) : (betaPDF a b x).toReal = betaPDFReal a b x := by
  unfold betaPDF
  refine ENNReal.toReal_ofReal ?_
  by_cases h : 0 < x ∧ x < 1
  · exact (betaPDFReal_pos h.1 h.2 ha hb).le
  · rw [betaPDFReal, if_neg h]

theorem beta_shift {a b : ℝ} (ha : 0 < a) (hb : 0 < b) (x : ℝ) : (betaPDF a b x).toReal * x = a / (a + b) * (betaPDF (a + 1) b x).toReal := by
  rw [betaPDF_toReal ha hb, betaPDF_toReal (by linarith) hb]
  unfold betaPDFReal
  by_cases h : 0 < x ∧ x < 1
  · rw [if_pos h, if_pos h]
    have e : x ^ (a + 1 - 1) = x ^ (a - 1) * x := by rw [show a + 1 - 1 = (a - 1) + 1 by ring, rpow_add_one h.1.ne']
    have g : ProbabilityTheory.beta (a + 1) b = ProbabilityTheory.beta a b * a / (a + b) := by
      unfold ProbabilityTheory.beta
      rw [show a + 1 + b = (a + b) + 1 by ring, Real.Gamma_add_one ha.ne', Real.Gamma_add_one (by linarith)]
      have := (Real.Gamma_pos_of_pos (add_pos ha hb)).ne'
      field_simp
    rw [e, g]
    have := (beta_pos ha hb).ne'
    have : a + b ≠ 0 := by linarith
    field_simp
  · rw [if_neg h, if_neg h]; simp

theorem gamma_isDensity {a r : ℝ} (ha : 0 < a) (hr : 0 < r) : IsDensity (gammaPDF a r) :=
  ⟨(measurable_gammaPDFReal a r).ennreal_ofReal, fun _ => ENNReal.ofReal_lt_top, lintegral_gammaPDF_eq_one ha hr⟩

theorem gamma_shift {a r : ℝ} (ha : 0 < a) (hr : 0 < r) (x : ℝ) : (gammaPDF a r x).toReal * x = a / r * (gammaPDF (a + 1) r x).toReal := by
  unfold gammaPDF
  rw [ENNReal.toReal_ofReal (gammaPDFReal_nonneg ha hr x), ENNReal.toReal_ofReal (gammaPDFReal_nonneg (by linarith) hr x)]
  unfold gammaPDFReal
  by_cases h : 0 ≤ x
  · rw [if_pos h, if_pos h]
    rcases h.eq_or_lt with h0 | h0
    · subst h0
      rw [show a + 1 - 1 = a by ring, zero_rpow ha.ne']
      simp
    · have e : x ^ (a + 1 - 1) = x ^ (a - 1) * x := by rw [show a + 1 - 1 = (a - 1) + 1 by ring, rpow_add_one h0.ne']
      rw [e, rpow_add_one hr.ne', Real.Gamma_add_one ha.ne']
      have := (Real.Gamma_pos_of_pos ha).ne'
      field_simp
  · rw [if_neg h, if_neg h]; simp

/-! ## The theorems -/

/-- The Beta distribution's mean and variance. -/
theorem C179_beta_moments {a b : ℝ} (ha : 0 < a) (hb : 0 < b) : HasMoments (betaMeasure a b) (a / (a + b)) (a * b / ((a + b) ^ 2 * (a + b + 1))) := by
  have := moments_of_shift (beta_isDensity ha hb) (beta_isDensity (by linarith : 0 < a + 1) hb) (beta_isDensity (by linarith : 0 < a + 1 + 1) hb) (beta_shift ha hb) (beta_shift (by linarith) hb)
  have e : a / (a + b) * ((a + 1) / (a + 1 + b)) - (a / (a + b)) ^ 2 = a * b / ((a + b) ^ 2 * (a + b + 1)) := by
    have : a + b ≠ 0 := by linarith
    have : a + b + 1 ≠ 0 := by linarith
    rw [show a + 1 + b = a + b + 1 by ring]
    field_simp
    ring
  rw [e] at this
  exact this

/-- The Gamma distribution's mean and variance, by shape and scale. -/
theorem C179_gamma_moments {k s : ℝ} (hk : 0 < k) (hs : 0 < s) : HasMoments (gammaMeasure k (1 / s)) (k * s) (k * s ^ 2) := by
  have hr : 0 < 1 / s := by positivity
  have := moments_of_shift (gamma_isDensity hk hr) (gamma_isDensity (by linarith : 0 < k + 1) hr) (gamma_isDensity (by linarith : 0 < k + 1 + 1) hr) (gamma_shift hk hr) (gamma_shift (by linarith) hr)
  have e1 : k / (1 / s) = k * s := by field_simp
  have e2 : k / (1 / s) * ((k + 1) / (1 / s)) - (k / (1 / s)) ^ 2 = k * s ^ 2 := by field_simp; ring
  rw [e2, e1] at this
  exact this

/-- **C179: a Beta by its mean and variance.** For every mean strictly between 0 and 1 and positive variance less than m(1 − m), the bound for any distribution on [0, 1], `apop_beta_from_mean_var` gives positive α and β whose Beta distribution has that mean and variance, and no others do. -/
theorem C179_beta_from {m v : ℝ} (h0 : 0 < m) (h1 : m < 1) (hv0 : 0 < v) (hv : v < m * (1 - m)) :
    ∃ a b, betaFromMeanVar m v = .ok (a, b) ∧ 0 < a ∧ 0 < b ∧ HasMoments (betaMeasure a b) m v ∧
      ∀ a' b', 0 < a' → 0 < b' → HasMoments (betaMeasure a' b') m v → a' = a ∧ b' = b := by
  have hk : 0 < m * (1 - m) / v - 1 := by
    rw [sub_pos, lt_div_iff₀ hv0]
    linarith
  have ha : 0 < m * (m * (1 - m) / v - 1) := mul_pos h0 hk
  have hb : 0 < (m * (1 - m) / v - 1) * (1 - m) := mul_pos hk (by linarith)
  refine ⟨_, _, by rw [betaFromMeanVar, if_neg (by push Not; exact ⟨h1, h0⟩)], ha, hb, ?_, ?_⟩
  · have := C179_beta_moments ha hb
    have hs : m * (m * (1 - m) / v - 1) + (m * (1 - m) / v - 1) * (1 - m) = m * (1 - m) / v - 1 := by ring
    rw [hs] at this
    have e1 : m * (m * (1 - m) / v - 1) / (m * (1 - m) / v - 1) = m := mul_div_cancel_right₀ _ hk.ne'
    have e2 : m * (m * (1 - m) / v - 1) * ((m * (1 - m) / v - 1) * (1 - m)) / ((m * (1 - m) / v - 1) ^ 2 * (m * (1 - m) / v - 1 + 1)) = v := by
      have h3 : m * (1 - m) / v - 1 + 1 = m * (1 - m) / v := by ring
      rw [h3]
      have hm1 : (1 - m) ≠ 0 := by linarith
      have hkk := hk.ne'
      generalize m * (1 - m) / v - 1 = k at hkk
      field_simp
    rw [e1, e2] at this
    exact this
  · intro a' b' ha' hb' hm
    obtain ⟨-, -, e1, -, e2⟩ := C179_beta_moments ha' hb'
    have hmean : a' / (a' + b') = m := e1.symm.trans hm.2.2.1
    have hvar : a' * b' / ((a' + b') ^ 2 * (a' + b' + 1)) = v := by
      rw [← e2, hmean]
      exact hm.2.2.2.2
    have hs : a' + b' ≠ 0 := by linarith
    have hs1 : a' + b' + 1 ≠ 0 := by linarith
    have hk' : m * (1 - m) / v - 1 = a' + b' := by
      rw [← hvar, ← hmean]
      have : a' ≠ 0 := ha'.ne'
      have : b' ≠ 0 := hb'.ne'
      field_simp
      ring
    rw [hk', ← hmean]
    constructor
    · field_simp
    · field_simp
      ring

/-- The documentation's range for the variance, (0, 1/12), is neither needed nor enough: mean 1/2 and variance 1/5 are fine, and mean 1/10 with variance 0.09 is not refused and gives α = β = 0. -/
theorem C179_beta_range_refuted : (∃ a b, betaFromMeanVar (1 / 2) (1 / 5) = .ok (a, b) ∧ HasMoments (betaMeasure a b) (1 / 2) (1 / 5)) ∧ (1 : ℝ) / 5 > 1 / 12 ∧
    betaFromMeanVar (1 / 10) (9 / 100) = .ok (0, 0) ∧ (∃ a b, betaFromMeanVar (1 / 100) (1 / 50) = .ok (a, b) ∧ a < 0 ∧ b < 0) ∧ (1 : ℝ) / 50 < 1 / 12 := by
  refine ⟨?_, by norm_num, ?_, ?_, by norm_num⟩
  · obtain ⟨a, b, h1, -, -, h2, -⟩ := C179_beta_from (m := 1 / 2) (v := 1 / 5) (by norm_num) (by norm_num) (by norm_num) (by norm_num)
    exact ⟨a, b, h1, h2⟩
  · rw [betaFromMeanVar, if_neg (by norm_num)]
    norm_num
  · refine ⟨_, _, by rw [betaFromMeanVar, if_neg (by norm_num)], by norm_num, by norm_num⟩

/-- **C179: a mean not strictly between 0 and 1 is refused.** -/
theorem C179_beta_refused (m v : ℝ) (h : m ≤ 0 ∨ 1 ≤ m) : betaFromMeanVar m v = .error 'r' := by
  rw [betaFromMeanVar, if_pos h.symm]

/-- **C179: estimates by moments.** The Gamma and Beta estimated from data in a vector or in a matrix have the mean and the variance of the data. -/
theorem C179_gamma_estimate (d : D) (h : OnePart d) (h2 : d.mat = none → 2 ≤ d.cells.length) (hm : 0 < mean d) (hv : 0 < partVar d) :
    ∃ a b, gammaEst d = some (a, b) ∧ HasMoments (gammaMeasure a (1 / b)) (mean d) (partVar d) := by
  obtain ⟨a, b, he, h3, h4⟩ := C78_gamma d h h2 hm.ne' hv.ne'
  have hb : 0 < b := by
    have : a * b ^ 2 = (a * b) * b := by ring
    rw [this, h3] at h4
    rcases lt_trichotomy b 0 with hb | hb | hb
    · nlinarith
    · subst hb; linarith
    · exact hb
  have ha : 0 < a := by
    rcases lt_trichotomy a 0 with ha | ha | ha
    · nlinarith
    · subst ha; linarith
    · exact ha
  refine ⟨a, b, he, ?_⟩
  rw [← h3, ← h4]
  exact C179_gamma_moments ha hb

theorem C179_beta_estimate (d : D) (h : OnePart d) (h2 : d.mat = none → 2 ≤ d.cells.length) (hm0 : 0 < mean d) (hm1 : mean d < 1) (hv0 : 0 < partVar d) (hv : partVar d < mean d * (1 - mean d)) :
    ∃ a b, betaEst d = some (a, b) ∧ HasMoments (betaMeasure a b) (mean d) (partVar d) := by
  obtain ⟨a, b, he, ha, hb, h3, h4⟩ := C78_beta d h h2 hm0 hm1 hv0 hv
  refine ⟨a, b, he, ?_⟩
  rw [← h3, ← h4]
  exact C179_beta_moments ha hb

/-! ### The lognormal -/

theorem logs_cells (d : D) : d.logs.cells = d.cells.map log := by
  unfold D.cells D.logs
  cases d.vec <;> cases d.mat <;> simp [List.map_flatten]

theorem logs_wf {d : D} (h : d.WF) : d.logs.WF := by
  intro m hm
  unfold D.logs at hm
  simp only [Option.map_eq_some_iff] at hm
  obtain ⟨m', hm', rfl⟩ := hm
  intro r hr
  obtain ⟨r', hr', rfl⟩ := List.mem_map.mp hr
  simpa using h m' hm' r' hr'

theorem logs_onePart {d : D} (h : OnePart d) : OnePart d.logs := by
  refine ⟨logs_wf h.wf, ?_, ?_⟩
  · rw [logs_cells]; simpa using h.ne
  · rcases h.one with e | e
    · left; simp [D.logs, e]
    · right; simp [D.logs, e]

/-- The lognormal's log likelihood is the normal's of the logs, less the logs. -/
theorem lognormalLl_logs (mu sd : ℝ) (d : D) (hw : d.WF) : lognormalLl mu sd d = normalLl mu sd d.logs - (d.cells.map log).sum := by
  unfold lognormalLl normalLl
  rw [mapSum_eq, mapSum_eq, mapSum_eq, tsize_eq hw, tsize_eq (logs_wf hw), logs_cells, List.map_map, List.length_map]
  simp only [Function.comp_def]
  ring

/-- **C179: the lognormal's estimate.** For data in a matrix whose logs are not all the same: the mean of the logs and their root mean squared deviation, and no other parameters are more likely. -/
theorem C179_lognormal_matrix (d : D) (h : OnePart d) (hm : d.vec = none) (hpos : 0 < msd d.logs) :
    lognormalEst d = .ok (.ok (mean d.logs, some (sqrt (msd d.logs)))) ∧ ∀ mu s, 0 < s → lognormalLl mu s d ≤ lognormalLl (mean d.logs) (sqrt (msd d.logs)) d := by
  have hmat : d.mat ≠ none := by
    intro e
    apply h.ne
    simp [D.cells, hm, e]
  have hl := logs_onePart h
  have hml : d.logs.vec = none := by simp [D.logs, hm]
  have h0 := (C76_normal_matrix d.logs hl hml hpos 0 1 one_pos).1
  constructor
  · unfold lognormalEst
    rw [if_neg (by simp [hmat])]
    unfold normalEst at h0
    cases hx : muVar d.logs with
    | ub => rw [hx] at h0; cases h0
    | ok p =>
      obtain ⟨a, b⟩ := p
      rw [hx] at h0
      have h0' : (Res.ok (a, b.map sqrt) : Res (ℝ × Option ℝ)) = .ok (mean d.logs, some (sqrt (msd d.logs))) := h0
      cases b with
      | none => simp at h0'
      | some v =>
        simp only [Option.map_some, Res.ok.injEq, Prod.mk.injEq, Option.some.injEq] at h0'
        simp only [Option.map_some]
        rw [h0'.1]
        have hv : ¬v < 0 := by
          intro hv
          rw [Real.sqrt_eq_zero_of_nonpos hv.le] at h0'
          have := Real.sqrt_pos.mpr hpos
          linarith [h0'.2]
        rw [if_neg hv, h0'.2]
  · intro mu s hs
    rw [lognormalLl_logs _ _ d h.wf, lognormalLl_logs _ _ d h.wf]
    have := (C76_normal_matrix d.logs hl hml hpos mu s hs).2
    linarith

/-- With nothing to estimate from, an error. -/
theorem C179_lognormal_nothing : lognormalEst ⟨none, none⟩ = .ok (.error 'd') := by
  simp [lognormalEst]

/-- With a vector and a matrix both it does not come back, as for the normal. -/
theorem C179_lognormal_both_refuted (v : List ℝ) (m : Mat ℝ) (hv : v ≠ []) (hm : m.size1 ≠ 0) : lognormalEst ⟨some v, some m⟩ = .ub := by
  have hm' : (⟨m.rows.map (List.map log), m.cols⟩ : Mat ℝ).size1 ≠ 0 := by simpa [Mat.size1] using hm
  have h := C76_normal_both (v.map log) ⟨m.rows.map (List.map log), m.cols⟩ (by simpa using hv) hm'
  have hx : muVar (D.logs ⟨some v, some m⟩) = .ub := by
    have e : D.logs ⟨some v, some m⟩ = ⟨some (v.map log), some ⟨m.rows.map (List.map log), m.cols⟩⟩ := rfl
    rw [e]
    unfold normalEst at h
    cases hx : muVar ⟨some (v.map log), some ⟨m.rows.map (List.map log), m.cols⟩⟩ with
    | ub => rfl
    | ok p => rw [hx] at h; cases h
  unfold lognormalEst
  rw [if_neg (by simp), hx]

/-- **C179: the lognormal's expected value** is what `lognormal_predict` gives: the mean of the model's draws. -/
theorem C179_lognormal_mean (mu sd : ℝ) : ∫ z, lognormalDraw mu sd z ∂gaussianReal 0 1 = lognormalPredict mu sd := by
  have h := congrFun (mgf_id_gaussianReal (μ := 0) (v := 1)) sd
  unfold mgf at h
  simp only [id] at h
  unfold lognormalDraw lognormalPredict
  have e : ∀ z, exp (sd * z + mu) = exp mu * exp (sd * z) := by intro z; rw [← exp_add]; ring_nf
  simp only [e]
  rw [integral_const_mul, h, ← exp_add]
  congr 1
  simp

/-- But the library never installs it (`lognormal_prep` adds a score only, model/apop_normal.c:244-247, and nothing else refers to it): `apop_predict` fills a missing value by the most likely one, which is exp(μ − σ²), less than the mean and never as likely. -/
theorem C179_lognormal_predict_refuted (mu sd : ℝ) (hsd : 0 < sd) :
    (∀ x, 0 < x → lognormalLl mu sd ⟨none, some ⟨[[x]], 1⟩⟩ ≤ lognormalLl mu sd ⟨none, some ⟨[[exp (mu - sd ^ 2)]], 1⟩⟩) ∧
    lognormalLl mu sd ⟨none, some ⟨[[lognormalPredict mu sd]], 1⟩⟩ < lognormalLl mu sd ⟨none, some ⟨[[exp (mu - sd ^ 2)]], 1⟩⟩ ∧ exp (mu - sd ^ 2) < lognormalPredict mu sd := by
  have ll : ∀ x, lognormalLl mu sd ⟨none, some ⟨[[x]], 1⟩⟩ = -(log x - mu) ^ 2 / (2 * sd ^ 2) - log x - ((log π + log 2) / 2 + log sd) := by
    intro x
    unfold lognormalLl
    rw [mapSum_eq, mapSum_eq]
    simp [D.cells, D.tsize, D.vsize, D.msize1, D.msize2, Mat.size1]
  have diff : ∀ y, -(mu - sd ^ 2 - mu) ^ 2 / (2 * sd ^ 2) - (mu - sd ^ 2) - (-(y - mu) ^ 2 / (2 * sd ^ 2) - y) = (y - (mu - sd ^ 2)) ^ 2 / (2 * sd ^ 2) := by
    intro y
    field_simp
    ring
  refine ⟨?_, ?_, ?_⟩
  · intro x _
    rw [ll, ll, log_exp]
    have := diff (log x)
    have h2 : 0 ≤ (log x - (mu - sd ^ 2)) ^ 2 / (2 * sd ^ 2) := by positivity
    linarith
  · rw [ll, ll, log_exp, lognormalPredict, log_exp]
    have := diff (mu + sd ^ 2 / 2)
    have h2 : 0 < (mu + sd ^ 2 / 2 - (mu - sd ^ 2)) ^ 2 / (2 * sd ^ 2) := by
      have : mu + sd ^ 2 / 2 - (mu - sd ^ 2) = 3 * sd ^ 2 / 2 := by ring
      rw [this]
      positivity
    linarith
  · unfold lognormalPredict
    apply exp_lt_exp.mpr
    nlinarith [sq_pos_of_pos hsd]

/-! ### The hypotheses hold -/

example : betaFromMeanVar (1 / 2) (1 / 12) = .ok (1, 1) := by
  rw [betaFromMeanVar, if_neg (by norm_num)]
  norm_num

example : HasMoments (betaMeasure 1 1) (1 / 2) (1 / 12) := by
  have := C179_beta_moments one_pos one_pos
  norm_num at this
  simpa using this

example : (∃ x : ℝ, x ≠ 0 ∧ OnePart ⟨none, some ⟨[[1, exp 2]], 2⟩⟩ ∧ 0 < msd (D.logs ⟨none, some ⟨[[1, exp 2]], 2⟩⟩)) := by
  refine ⟨1, one_ne_zero, ⟨?_, by simp [D.cells], .inl rfl⟩, ?_⟩
  · intro m hm
    cases hm
    intro r hr
    simp only [List.mem_singleton] at hr
    subst hr
    rfl
  · norm_num [msd, mean, D.logs, D.cells]

end Apop.Dist
