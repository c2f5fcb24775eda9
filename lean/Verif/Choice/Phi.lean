import Mathlib.Probability.Distributions.Gaussian.Real
import Mathlib.MeasureTheory.Integral.IntervalIntegral.FundThmCalculus
import Mathlib.MeasureTheory.Integral.IntegralEqImproper

/-! # The standard Normal distribution function

`gsl_cdf_gaussian_P(x, 1)` and `gsl_ran_gaussian_pdf(x, 1)` by their documented meaning. -/

namespace Apop.Choice

open MeasureTheory ProbabilityTheory Set

/-- `gsl_ran_gaussian_pdf(x, 1)`. -/
noncomputable def phi (x : ℝ) : ℝ := gaussianPDFReal 0 1 x

/-- `gsl_cdf_gaussian_P(x, 1)`: the integral of the density up to `x`. -/
noncomputable def Phi (x : ℝ) : ℝ := ∫ t in Iic x, phi t

theorem phi_pos (x : ℝ) : 0 < phi x := gaussianPDFReal_pos 0 1 x (by simp)

theorem phi_integrable : Integrable phi := integrable_gaussianPDFReal 0 1

theorem phi_cont : Continuous phi := by
  unfold phi
  simp only [gaussianPDFReal_def]
  fun_prop

theorem phi_neg (x : ℝ) : phi (-x) = phi x := by unfold phi; simp [gaussianPDFReal_def]

theorem Phi_sub (a b : ℝ) : Phi b - Phi a = ∫ t in a..b, phi t :=
  intervalIntegral.integral_Iic_sub_Iic phi_integrable.integrableOn phi_integrable.integrableOn

theorem Phi_deriv (x : ℝ) : HasDerivAt Phi (phi x) x := by
  have h : HasDerivAt (fun u => ∫ t in (0 : ℝ)..u, phi t) (phi x) x :=
    intervalIntegral.integral_hasDerivAt_right (phi_cont.intervalIntegrable 0 x) phi_cont.stronglyMeasurable.stronglyMeasurableAtFilter phi_cont.continuousAt
  have e : Phi = fun u => Phi 0 + ∫ t in (0 : ℝ)..u, phi t := by
    funext u; rw [← Phi_sub]; ring
  rw [e]
  exact h.const_add (Phi 0)

theorem Phi_lt {a b : ℝ} (h : a < b) : Phi a < Phi b := by
  have := intervalIntegral.intervalIntegral_pos_of_pos (phi_cont.intervalIntegrable a b) (fun x => phi_pos x) h
  have := Phi_sub a b
  linarith

theorem Phi_add_compl (x : ℝ) : Phi x + ∫ t in Ioi x, phi t = 1 := by
  have h := integral_add_compl (measurableSet_Iic (a := x)) phi_integrable
  rw [compl_Iic] at h
  rw [Phi, h]
  exact integral_gaussianPDFReal_eq_one 0 (by simp)

theorem Phi_nonneg (x : ℝ) : 0 ≤ Phi x := integral_nonneg fun t => (phi_pos t).le

theorem Phi_pos (x : ℝ) : 0 < Phi x := lt_of_le_of_lt (Phi_nonneg (x - 1)) (Phi_lt (by linarith))

theorem Phi_le_one (x : ℝ) : Phi x ≤ 1 := by
  have := Phi_add_compl x
  have h2 : 0 ≤ ∫ t in Ioi x, phi t := integral_nonneg fun t => (phi_pos t).le
  linarith

theorem Phi_lt_one (x : ℝ) : Phi x < 1 := lt_of_lt_of_le (Phi_lt (show x < x + 1 by linarith)) (Phi_le_one _)

theorem Phi_neg (x : ℝ) : Phi (-x) = 1 - Phi x := by
  have h : ∫ t in Iic (-x), phi (-t) = ∫ t in Ioi (- -x), phi t := integral_comp_neg_Iic (-x) phi
  rw [neg_neg] at h
  simp only [phi_neg] at h
  have := Phi_add_compl x
  unfold Phi at *
  linarith

end Apop.Choice
