import Verif.Dist.Moments
import Mathlib.Analysis.SpecialFunctions.ImproperIntegrals
import Mathlib.Analysis.SpecialFunctions.Gamma.Basic
import Mathlib.Analysis.SpecialFunctions.Gaussian.GaussianIntegral
import Mathlib.MeasureTheory.Integral.Prod

/-! # C200: the estimates of the t distribution -/

namespace Apop.Dist
open Real MeasureTheory Filter Topology

/-! ## The model -/

/-- The sums of squares, `apop_t_estimate`, model/apop_t.c:12-18: the vector's variance times its size less one, plus the matrix's times its size less one; `none` is NaN. -/
noncomputable def tSumSq (d : D) : Option ℝ := (vvar d).map fun vv => vv * ((d.vsize : ℝ) - 1) + (mmv d).2 * ((d.msize1 * d.msize2 : ℝ) - 1)

/-- The scale, model/apop_t.c:20: `none` is NaN (a quotient by zero, or the root of a negative number). -/
noncomputable def tSigma (n ss : ℝ) : Option ℝ :=
  if n = 1 then none
  else if (n - 3) / (n - 1) * ss / (n - 1) < 0 then none
  else some (√((n - 3) / (n - 1) * ss / (n - 1)))

/-- `apop_t_estimate`, model/apop_t.c:8-21: location, scale and degrees of freedom, for a data set with elements. -/
noncomputable def tEst (d : D) : ℝ × Option ℝ × ℝ :=
  ((vmean d * d.vsize + (mmv d).1 * d.msize1 * d.msize2) / d.tsize, (tSumSq d).bind (tSigma d.tsize), (d.tsize : ℝ) - 1)

/-- `gsl_ran_tdist_pdf` (GSL, randist/tdist.c). -/
noncomputable def gslTPdf (nu x : ℝ) : ℝ := exp (log (Gamma ((nu + 1) / 2)) - log (Gamma (nu / 2))) / √(π * nu) * (1 + x * x / nu) ^ (-(nu + 1) / 2)

/-! ## Specification -/

/-- The average of `g` by the distribution with density `f`. -/
noncomputable def expect (f g : ℝ → ℝ) : ℝ := ∫ x, g x * f x

/-- The density whose log the model's log likelihood adds up (C74): the t density moved to `mu` and scaled by `sigma`. -/
noncomputable def tDensity (mu sigma nu x : ℝ) : ℝ := gslTPdf nu ((x - mu) / sigma) / sigma

/-! ## Proofs -/

/-- The t density but for constants and scale. -/
noncomputable def ker (nu u : ℝ) : ℝ := (1 + u ^ 2) ^ (-(nu + 1) / 2)

theorem ker_pos (nu u : ℝ) : 0 < ker nu u := by unfold ker; positivity

theorem ker_int {nu : ℝ} (h : 0 < nu) : Integrable (ker nu) := by
  have := integrable_rpow_neg_one_add_norm_sq (E := ℝ) (μ := volume) (r := nu + 1) (by simpa using h)
  have e : ker nu = fun x : ℝ => ((1 : ℝ) + ‖x‖ ^ 2) ^ (-(nu + 1) / 2) := by funext x; simp only [ker, Real.norm_eq_abs, sq_abs]
  rw [e]; exact this

theorem sq_ker_le (nu u : ℝ) : u ^ 2 * ker nu u ≤ ker (nu - 2) u := by
  have h : ker (nu - 2) u = (1 + u ^ 2) * ker nu u := by
    unfold ker
    rw [show -(nu - 2 + 1) / 2 = 1 + -(nu + 1) / 2 by ring, rpow_add (by positivity), rpow_one]
  rw [h]
  have := ker_pos nu u
  nlinarith

theorem ker_cont (nu : ℝ) : Continuous (ker nu) := by
  unfold ker
  exact Continuous.rpow_const (by fun_prop) fun x => Or.inl (by positivity)

theorem sq_ker_int {nu : ℝ} (h : 2 < nu) : Integrable fun u => u ^ 2 * ker nu u := by
  refine (ker_int (nu := nu - 2) (by linarith)).mono' ?_ (Eventually.of_forall fun u => ?_)
  · exact ((continuous_pow 2).mul (ker_cont nu)).aestronglyMeasurable
  · rw [Real.norm_of_nonneg (by have := ker_pos nu u; positivity)]
    exact sq_ker_le nu u

theorem id_ker_int {nu : ℝ} (h : 2 < nu) : Integrable fun u => u * ker nu u := by
  refine ((ker_int (nu := nu) (by linarith)).add (sq_ker_int h)).mono' ?_ (Eventually.of_forall fun u => ?_)
  · exact (continuous_id.mul (ker_cont nu)).aestronglyMeasurable
  · have := ker_pos nu u
    rw [norm_mul, Real.norm_of_nonneg this.le, Real.norm_eq_abs, Pi.add_apply]
    have h2 : |u| ≤ 1 + u ^ 2 := by
      rw [← sq_abs]; nlinarith [sq_nonneg (|u| - 1), abs_nonneg u]
    nlinarith

theorem bound_tendsto {a : ℝ} (h : 0 < a) (l : Filter ℝ) (hl : Tendsto (fun u : ℝ => u ^ 2) l atTop) : Tendsto (fun u : ℝ => (1 + u ^ 2) ^ (-a)) l (𝓝 0) :=
  (tendsto_rpow_neg_atTop h).comp (tendsto_atTop_add_const_left _ _ hl)

theorem edge {nu : ℝ} (h : 2 < nu) (l : Filter ℝ) (hl : Tendsto (fun u : ℝ => u ^ 2) l atTop) : Tendsto (fun u : ℝ => u * (1 + u ^ 2) ^ (-(nu - 1) / 2)) l (𝓝 0) := by
  refine squeeze_zero_norm (fun u => ?_) (bound_tendsto (a := (nu - 2) / 2) (by linarith) l hl)
  have h1 : (0 : ℝ) < 1 + u ^ 2 := by positivity
  rw [norm_mul, Real.norm_of_nonneg (rpow_nonneg h1.le _), Real.norm_eq_abs]
  have h2 : |u| ≤ (1 + u ^ 2) ^ (1 / 2 : ℝ) := by
    rw [← sqrt_eq_rpow]; exact abs_le_sqrt (by linarith)
  calc |u| * (1 + u ^ 2) ^ (-(nu - 1) / 2) ≤ (1 + u ^ 2) ^ (1 / 2 : ℝ) * (1 + u ^ 2) ^ (-(nu - 1) / 2) := by gcongr
    _ = (1 + u ^ 2) ^ (-((nu - 2) / 2)) := by rw [← rpow_add h1]; congr 1; ring

theorem deriv_edge (nu u : ℝ) : HasDerivAt (fun u : ℝ => u * (1 + u ^ 2) ^ (-(nu - 1) / 2)) (ker nu u - (nu - 2) * (u ^ 2 * ker nu u)) u := by
  have h1 : (0 : ℝ) < 1 + u ^ 2 := by positivity
  have h2 : HasDerivAt (fun u : ℝ => 1 + u ^ 2) (2 * u) u := by
    simpa using (hasDerivAt_pow 2 u).const_add 1
  have h3 := (hasDerivAt_id u).mul (h2.rpow_const (p := -(nu - 1) / 2) (Or.inl h1.ne'))
  have e1 : (1 + u ^ 2) ^ (-(nu - 1) / 2) = (1 + u ^ 2) * ker nu u := by
    unfold ker
    rw [show -(nu - 1) / 2 = 1 + -(nu + 1) / 2 by ring, rpow_add h1, rpow_one]
  have e2 : (1 + u ^ 2) ^ (-(nu - 1) / 2 - 1) = ker nu u := by
    unfold ker; congr 1; ring
  refine HasDerivAt.congr_deriv h3 ?_
  rw [e1, e2]
  simp only [id_eq]
  ring

theorem ker_second {nu : ℝ} (h : 2 < nu) : (nu - 2) * ∫ u, u ^ 2 * ker nu u = ∫ u, ker nu u := by
  have htop : Tendsto (fun u : ℝ => u ^ 2) atTop atTop := tendsto_pow_atTop two_ne_zero
  have hbot : Tendsto (fun u : ℝ => u ^ 2) atBot atTop := by
    have := htop.comp tendsto_neg_atBot_atTop
    simpa [Function.comp_def] using this
  have hi1 := ker_int (nu := nu) (by linarith)
  have hi2 := (sq_ker_int h).const_mul (nu - 2)
  have := integral_of_hasDerivAt_of_tendsto (deriv_edge nu) (hi1.sub hi2) (edge h atBot hbot) (edge h atTop htop)
  rw [integral_sub hi1 hi2, integral_const_mul, sub_zero] at this
  linarith

theorem ker_first (nu : ℝ) : ∫ u, u * ker nu u = 0 := by
  have h : ∫ u, u * ker nu u = ∫ u, -(u * ker nu u) := by
    rw [← integral_neg_eq_self (fun u => u * ker nu u)]
    congr 1; funext u; simp [ker]
  rw [integral_neg] at h
  linarith

theorem ker_mass {nu : ℝ} (h : 0 < nu) : 0 < ∫ u, ker nu u := by
  rw [integral_pos_iff_support_of_nonneg (fun u => (ker_pos nu u).le) (ker_int h)]
  have : Function.support (ker nu) = Set.univ := by
    ext u; simp [(ker_pos nu u).ne']
  rw [this]; simp

theorem affine (g : ℝ → ℝ) (m s : ℝ) (hs : 0 < s) : ∫ x, g ((x - m) / s) = s * ∫ u, g u := by
  rw [integral_sub_right_eq_self (fun x => g (x / s)) m, Measure.integral_comp_div]
  rw [abs_of_pos hs, smul_eq_mul]

theorem tDensity_eq (mu : ℝ) {sigma nu : ℝ} (hs : 0 < sigma) (hn : 0 < nu) : ∃ c, 0 < c ∧ ∀ x, tDensity mu sigma nu x = c * ker nu ((x - mu) / (sigma * √nu)) := by
  refine ⟨exp (log (Gamma ((nu + 1) / 2)) - log (Gamma (nu / 2))) / √(π * nu) / sigma, by positivity, fun x => ?_⟩
  have hq : √nu ≠ 0 := (sqrt_pos.2 hn).ne'
  have e : ((x - mu) / (sigma * √nu)) ^ 2 = (x - mu) / sigma * ((x - mu) / sigma) / nu := by
    rw [div_pow, mul_pow, sq_sqrt hn.le]; field_simp
  unfold tDensity gslTPdf ker
  rw [e]
  ring

/-- The t kernel as a mixture of Gaussians. -/
noncomputable def mix (a u t : ℝ) : ℝ := t ^ (a - 1) * exp (-((1 + u ^ 2) * t))

theorem mix_t {a : ℝ} (ha : 0 < a) (u : ℝ) : ∫ t in Set.Ioi 0, mix a u t = Gamma a * (1 + u ^ 2) ^ (-a) := by
  unfold mix
  rw [integral_rpow_mul_exp_neg_mul_Ioi ha (by positivity), one_div, inv_rpow (by positivity), rpow_neg (by positivity), mul_comm]

theorem mix_t_int {a : ℝ} (ha : 0 < a) (u : ℝ) : IntegrableOn (mix a u) (Set.Ioi 0) := by
  have := integrableOn_rpow_mul_exp_neg_mul_rpow (p := 1) (s := a - 1) (b := 1 + u ^ 2) (by linarith) one_pos (by positivity)
  refine this.congr_fun (fun t _ => ?_) measurableSet_Ioi
  simp only [mix, rpow_one]; congr 2; ring

theorem mix_prod {nu : ℝ} (h : 0 < nu) : Integrable (Function.uncurry (mix ((nu + 1) / 2))) (volume.prod (volume.restrict (Set.Ioi 0))) := by
  have ha : 0 < (nu + 1) / 2 := by linarith
  rw [integrable_prod_iff]
  · refine ⟨Eventually.of_forall fun u => mix_t_int ha u, ?_⟩
    have e : (fun u => ∫ t in Set.Ioi 0, ‖Function.uncurry (mix ((nu + 1) / 2)) (u, t)‖) = fun u => Gamma ((nu + 1) / 2) * ker nu u := by
      funext u
      rw [ker, show -(nu + 1) / 2 = -((nu + 1) / 2) by ring, ← mix_t ha u]
      refine setIntegral_congr_fun measurableSet_Ioi fun t ht => ?_
      simp only [Function.uncurry]
      exact Real.norm_of_nonneg (mul_nonneg (rpow_nonneg (le_of_lt ht) _) (exp_pos _).le)
    rw [e]
    exact (ker_int h).const_mul _
  · apply Measurable.aestronglyMeasurable
    unfold Function.uncurry mix
    fun_prop

theorem ker_integral {nu : ℝ} (h : 0 < nu) : ∫ u, ker nu u = √π * Gamma (nu / 2) / Gamma ((nu + 1) / 2) := by
  have ha : 0 < (nu + 1) / 2 := by linarith
  have hg := Gamma_pos_of_pos ha
  have h1 : Gamma ((nu + 1) / 2) * ∫ u, ker nu u = ∫ u, ∫ t in Set.Ioi 0, mix ((nu + 1) / 2) u t := by
    rw [← integral_const_mul]
    congr 1; funext u
    rw [mix_t ha, ker, show -(nu + 1) / 2 = -((nu + 1) / 2) by ring]
  have h2 := integral_integral_swap (mix_prod h)
  have h3 : ∫ t in Set.Ioi 0, ∫ u, mix ((nu + 1) / 2) u t = √π * Gamma (nu / 2) := by
    rw [Gamma_eq_integral (by linarith), ← integral_const_mul]
    refine setIntegral_congr_fun measurableSet_Ioi fun t ht => ?_
    have ht : 0 < t := ht
    have e : (fun u => mix ((nu + 1) / 2) u t) = fun u => (t ^ ((nu + 1) / 2 - 1) * exp (-t)) * exp (-t * u ^ 2) := by
      funext u
      rw [mix, mul_assoc, ← exp_add]; congr 2; ring
    simp only [e]
    rw [integral_const_mul, integral_gaussian, sqrt_div pi_pos.le, show (nu + 1) / 2 - 1 = (nu / 2 - 1) + 1 / 2 by ring, rpow_add ht, ← sqrt_eq_rpow]
    have := (sqrt_pos.2 ht).ne'
    field_simp
  rw [eq_div_iff hg.ne', mul_comm, h1, h2, h3]

/-- GSL's t density has integral one. -/
theorem gslTPdf_mass {nu : ℝ} (h : 0 < nu) (mu : ℝ) {sigma : ℝ} (hs : 0 < sigma) : ∫ x, tDensity mu sigma nu x = 1 := by
  have hq : 0 < √nu := sqrt_pos.2 h
  have g1 := Gamma_pos_of_pos (show 0 < nu / 2 by linarith)
  have g2 := Gamma_pos_of_pos (show 0 < (nu + 1) / 2 by linarith)
  have e : ∀ x, tDensity mu sigma nu x = exp (log (Gamma ((nu + 1) / 2)) - log (Gamma (nu / 2))) / √(π * nu) / sigma * ker nu ((x - mu) / (sigma * √nu)) := by
    intro x
    have e : ((x - mu) / (sigma * √nu)) ^ 2 = (x - mu) / sigma * ((x - mu) / sigma) / nu := by
      rw [div_pow, mul_pow, sq_sqrt h.le]; field_simp
    unfold tDensity gslTPdf ker
    rw [e]
    ring
  simp only [e]
  rw [integral_const_mul, affine (ker nu) mu (sigma * √nu) (by positivity), ker_integral h, exp_sub, exp_log g1, exp_log g2, sqrt_mul pi_pos.le]
  have := (sqrt_pos.2 pi_pos).ne'
  field_simp
/-- The t distribution, moved and scaled, has mean `mu` and variance sigma² ν/(ν - 2). -/
theorem tMoments (mu : ℝ) {sigma nu : ℝ} (hs : 0 < sigma) (hn : 2 < nu) :
    Integrable (tDensity mu sigma nu) ∧ (∫ x, tDensity mu sigma nu x) = 1 ∧ expect (tDensity mu sigma nu) id = mu ∧ expect (tDensity mu sigma nu) (fun x => (x - mu) ^ 2) = sigma ^ 2 * nu / (nu - 2) := by
  have hn0 : 0 < nu := by linarith
  obtain ⟨c, hc, e⟩ := tDensity_eq mu hs hn0
  have hq : 0 < √nu := sqrt_pos.2 hn0
  have hS : 0 < sigma * √nu := by positivity
  set S := sigma * √nu with hSd
  have hS2 : S ^ 2 = sigma ^ 2 * nu := by rw [hSd, mul_pow, sq_sqrt hn0.le]
  have hf : tDensity mu sigma nu = fun x => c * ker nu ((x - mu) / S) := funext e
  have hm := ker_mass hn0
  have h0 : ∫ x, tDensity mu sigma nu x = c * S * ∫ u, ker nu u := by
    rw [hf, integral_const_mul, affine (ker nu) mu S hS]; ring
  have h2 : ∫ x, (x - mu) ^ 2 * tDensity mu sigma nu x = c * S * (S ^ 2 * ∫ u, u ^ 2 * ker nu u) := by
    have : (fun x => (x - mu) ^ 2 * tDensity mu sigma nu x) = fun x => (c * S ^ 2) * (fun u => u ^ 2 * ker nu u) ((x - mu) / S) := by
      funext x; rw [e]; field_simp
    rw [this, integral_const_mul, affine (fun u => u ^ 2 * ker nu u) mu S hS]; ring
  have hint : Integrable (tDensity mu sigma nu) := by
    rw [hf]
    exact (((ker_int hn0).comp_div hS.ne').comp_sub_right mu).const_mul c
  have hi1 : Integrable fun x => (x - mu) * tDensity mu sigma nu x := by
    have : (fun x => (x - mu) * tDensity mu sigma nu x) = fun x => (c * S) * (fun u => u * ker nu u) ((x - mu) / S) := by
      funext x; rw [e]; field_simp
    rw [this]
    exact (((id_ker_int hn).comp_div hS.ne').comp_sub_right mu).const_mul _
  have h1 : ∫ x, (x - mu) * tDensity mu sigma nu x = 0 := by
    have : (fun x => (x - mu) * tDensity mu sigma nu x) = fun x => (c * S) * (fun u => u * ker nu u) ((x - mu) / S) := by
      funext x; rw [e]; field_simp
    rw [this, integral_const_mul, affine (fun u => u * ker nu u) mu S hS, ker_first]; ring
  have hone := gslTPdf_mass hn0 mu hs
  refine ⟨hint, hone, ?_, ?_⟩
  · have e3 : (fun x => id x * tDensity mu sigma nu x) = fun x => (x - mu) * tDensity mu sigma nu x + mu * tDensity mu sigma nu x := by
      funext x; simp only [id]; ring
    rw [expect, e3, integral_add hi1 (hint.const_mul mu), h1, integral_const_mul, zero_add, hone, mul_one]
  · rw [h0, ← ker_second hn] at hone
    rw [expect, h2, hS2]
    have h4 : 0 < nu - 2 := by linarith
    rw [eq_div_iff h4.ne']
    calc c * S * (sigma ^ 2 * nu * ∫ u, u ^ 2 * ker nu u) * (nu - 2) = (c * S * ((nu - 2) * ∫ u, u ^ 2 * ker nu u)) * (sigma ^ 2 * nu) := by ring
      _ = sigma ^ 2 * nu := by rw [hone, one_mul]

theorem tEst_eq {d : D} (h : OnePart d) (h2 : 2 ≤ d.cells.length) : tEst d = (mean d, tSigma d.cells.length (partVar d * (d.cells.length - 1)), (d.cells.length : ℝ) - 1) := by
  rcases h.cases with ⟨v, hv, rfl⟩ | ⟨m, hm, hne, h1, rfl⟩
  · have hl : v.length ≠ 0 := by rwa [ne_eq, List.length_eq_zero_iff]
    have hl' : (v.length : ℝ) ≠ 0 := by exact_mod_cast hl
    obtain ⟨e1, e2, e3, e4⟩ := vec_only (v := v)
    rw [e4] at h2
    have hvv : vvar ⟨some v, none⟩ = some (partVar ⟨some v, none⟩) := by
      simp only [vvar, e1, hl, if_false, partVar, mean, e4]
      exact Stats.C52_var v h2
    have hvm : vmean ⟨some v, none⟩ = mean ⟨some v, none⟩ := by simp [vmean, e1, hv, mean, e4, Stats.gslMean]
    have hmm : mmv ⟨some v, none⟩ = (0, 0) := by simp [mmv, e2]
    simp only [tEst, tSumSq, hvv, hvm, hmm, e1, e2, e3, e4, Option.map_some, Option.bind_some]
    rw [show (mean ⟨some v, none⟩ * (v.length : ℝ) + 0 * ((0 : ℕ) : ℝ) * _) / v.length = mean ⟨some v, none⟩ by field_simp; simp]
    simp
  · obtain ⟨e1, e2, e3, e4⟩ := mat_only (m := m)
    have ht : (⟨none, some m⟩ : D).tsize = m.rows.flatten.length := by rw [tsize_eq h.wf, e4]
    have hfl := flatten_length hm
    have hl0 : m.rows.flatten.length ≠ 0 := by rw [ne_eq, List.length_eq_zero_iff]; exact hne
    have hl : (m.rows.flatten.length : ℝ) ≠ 0 := by exact_mod_cast hl0
    have hl2 : (m.size1 : ℝ) * m.cols = m.rows.flatten.length := by rw [hfl]; push_cast; rfl
    have hmv : mmv ⟨none, some m⟩ = (mean ⟨none, some m⟩, partVar ⟨none, some m⟩) := by
      simp only [mmv, e2, h1, if_false, Option.map_some, Option.getD_some, mean, msd, e4, partVar]
      exact Stats.C53_matrix_var _ hne
    have hvm : vmean ⟨none, some m⟩ = 0 := by simp [vmean, e1]
    have hvv : vvar ⟨none, some m⟩ = some 0 := by simp [vvar, e1]
    simp only [tEst, tSumSq, hmv, hvm, hvv, e1, e2, e3, ht, e4, Option.map_some, Option.bind_some, mul_assoc, hl2]
    rw [zero_mul, zero_add, mul_div_assoc, div_self hl, mul_one, zero_mul, zero_add]

/-- **C200 (moments).** For more than three numbers, not all equal, in a vector or in a matrix: the degrees of freedom are their count less one, the scale is a positive number, and the t distribution the model then has, whose density (of integral one) is the one its log likelihood uses, has the data's mean and variance. -/
theorem C200_moments (d : D) (h : OnePart d) (h3 : 3 < d.cells.length) (hv : 0 < partVar d) :
    ∃ mu sigma nu, tEst d = (mu, some sigma, nu) ∧ nu = (d.cells.length : ℝ) - 1 ∧ 0 < sigma ∧
      Integrable (tDensity mu sigma nu) ∧ (∫ x, tDensity mu sigma nu x) = 1 ∧
      expect (tDensity mu sigma nu) id = mean d ∧ expect (tDensity mu sigma nu) (fun x => (x - mean d) ^ 2) = partVar d := by
  have hn : (3 : ℝ) < d.cells.length := by exact_mod_cast h3
  have ha : 0 < (d.cells.length : ℝ) - 1 := by linarith
  have hb : 0 < (d.cells.length : ℝ) - 3 := by linarith
  have hq : 0 < ((d.cells.length : ℝ) - 3) / (d.cells.length - 1) * (partVar d * (d.cells.length - 1)) / (d.cells.length - 1) := by positivity
  have hs := sqrt_pos.2 hq
  obtain ⟨i1, i2, i3, i4⟩ := tMoments (mean d) hs (nu := (d.cells.length : ℝ) - 1) (by linarith)
  refine ⟨_, _, _, ?_, rfl, hs, i1, i2, i3, ?_⟩
  · rw [tEst_eq h (by omega), tSigma, if_neg (by linarith), if_neg (not_lt.2 hq.le)]
  · rw [i4, sq_sqrt hq.le, show (d.cells.length : ℝ) - 1 - 2 = d.cells.length - 3 by ring]
    field_simp

/-- **C200 (likelihood).** With these estimates the log likelihood reported is the log of the product of that density over the data. -/
theorem C200_likelihood (d : D) (hw : d.WF) (mu sigma nu : ℝ) (hs : 0 < sigma) (hn : 0 < nu) :
    tLl (gslTPdf nu) mu sigma d = log (likelihood (tDensity mu sigma nu) d) :=
  C74_t (gslTPdf nu) (fun x => by unfold gslTPdf; have := mul_self_nonneg x; positivity) mu sigma hs d hw

/-- Non-vacuity: the numbers 0, 2, 4, 6 have mean 3 and sample variance 20/3. -/
example : OnePart ⟨some [0, 2, 4, 6], none⟩ ∧ 3 < (⟨some [0, 2, 4, 6], none⟩ : D).cells.length ∧ partVar ⟨some [0, 2, 4, 6], none⟩ = 20 / 3 ∧ mean ⟨some [0, 2, 4, 6], none⟩ = 3 := by
  refine ⟨⟨fun m h => by simp at h, by simp [D.cells], Or.inr rfl⟩, by simp [D.cells], ?_, ?_⟩ <;> norm_num [partVar, mean, D.cells]

/-- **C200 (small data, refuted).** With three numbers the scale is zero and with two (not equal) it is NaN: no t distribution. -/
theorem C200_small_refuted (d : D) (h : OnePart d) (hv : 0 < partVar d) :
    (d.cells.length = 3 → (tEst d).2.1 = some 0) ∧ (d.cells.length = 2 → (tEst d).2.1 = none) := by
  refine ⟨fun h3 => ?_, fun h2 => ?_⟩
  · rw [tEst_eq h (by omega), h3]; norm_num [tSigma]
  · rw [tEst_eq h (by omega), h2]; norm_num [tSigma, hv]

/-- **C200 (both parts, refuted).** With -1, 1 in the vector and 9, 11 in the matrix the distance of the parts is lost: the t distribution has variance one, the data 104/3. -/
theorem C200_both_parts_refuted : ∃ d : D, d.WF ∧ d.cells = [-1, 1, 9, 11] ∧
    ∃ mu sigma nu, tEst d = (mu, some sigma, nu) ∧ mu = 5 ∧ expect (tDensity mu sigma nu) (fun x => (x - mu) ^ 2) = 1 := by
  refine ⟨⟨some [-1, 1], some ⟨[[9], [11]], 1⟩⟩, ?_, by simp [D.cells], 5, √(1 / 3), 3, ?_, rfl, ?_⟩
  · intro m hm; simp only [Option.some.injEq] at hm; subst hm; simp [Mat.WF]
  · have h1 : vvar ⟨some [-1, 1], some ⟨[[9], [11]], 1⟩⟩ = some 2 := by
      have := Stats.C52_var ([-1, 1] : List ℝ) (by simp)
      rw [vvar, if_neg (by simp [D.vsize]), this]; norm_num
    have h2 : mmv ⟨some [-1, 1], some ⟨[[9], [11]], 1⟩⟩ = (10, 1) := by
      have := Stats.C53_matrix_var ([[9], [11]] : List (List ℝ)) (by simp)
      rw [mmv, if_neg (by simp [D.msize1, Mat.size1])]
      simp only [Option.map_some, Option.getD_some, this]; norm_num
    have h3 : vmean ⟨some [-1, 1], some ⟨[[9], [11]], 1⟩⟩ = 0 := by norm_num [vmean, D.vsize, Stats.gslMean]
    simp only [tEst, tSumSq, h1, h2, h3, D.tsize, D.vsize, D.msize1, D.msize2, Mat.size1, Option.map_some, Option.bind_some, List.length_cons, List.length_nil]
    norm_num [tSigma]
  · rw [(tMoments 5 (sqrt_pos.2 (by norm_num)) (by norm_num)).2.2.2, sq_sqrt (by norm_num)]; norm_num

end Apop.Dist
