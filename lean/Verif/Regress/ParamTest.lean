import Verif.Regress.Ols
import Verif.Tests.TTest
import Mathlib.Probability.Distributions.Gaussian.Real
import Mathlib.MeasureTheory.Measure.Typeclasses.NullSingletonClass

/-! # C161: tests of estimated parameters -/

namespace Apop.ParamTest
open MeasureTheory Real Apop.TTest
variable {n k : ℕ}

/-- A row of the page `<test info>`; none for NaN. -/
structure Row where
  p : Option ℝ
  confidence : Option ℝ

/-! ## The models -/

/-- The degrees of freedom, apop_regression.m4.c:15-18: rows of the matrix, or of the vector if there is none, less parameters, one at least. -/
def dof (msize1 vsize : ℕ) (params : ℕ) : ℤ := if (if msize1 ≠ 0 then (msize1 : ℤ) else vsize) - params < 1 then 1 else (if msize1 ≠ 0 then (msize1 : ℤ) else vsize) - params

/-- The CDF at zero of a distribution of a location and a scale, whose standardized function is `P`: `apop_t_dist_cdf` (model/apop_t.c:50-57) and `normal_cdf` (model/apop_normal.c:99-106). None for NaN. -/
noncomputable def cdfZero (P : ℝ → ℝ) (mu sigma : ℝ) : Option ℝ :=
  match ddiv (0 - mu) sigma with
  | .fin x => some (P x)
  | .pinf => some 1
  | .ninf => some 0
  | .nan => none

/-- One turn of the loop, apop_regression.m4.c:27-31. -/
noncomputable def row (zero : Option ℝ) : Row := ⟨zero.map fun z => 1 - 2 * |1 / 2 - z|, zero.map fun z => 2 * |1 / 2 - z|⟩

/-- `apop_estimate_parameter_tests`, apop_regression.m4.c:8-35, after least squares: the parameter model is `ols_param_models` (model/apop_ols.c:368-377), a t distribution around the estimate; `P df x` is `gsl_cdf_tdist_P(x, df)`. -/
noncomputable def olsTests (P : ℤ → ℝ → ℝ) (e : Ols.Est n k) (i : Fin k) : Row := row (cdfZero (P (dof n n k)) (e.β i) √(e.cov i i))

/-- The same for a model without a parameter model of its own: `apop_parameter_model` (apop_model.m4.c:362-377) makes a Normal with the element of the (bootstrapped) covariance matrix as its second parameter; `Φ` is `gsl_cdf_ugaussian_P`. -/
noncomputable def defaultTests (Φ : ℝ → ℝ) (β : Fin k → ℝ) (cov : Fin k → Fin k → ℝ) (i : Fin k) : Row := row (cdfZero Φ (β i) (cov i i))

/-! ## Proofs -/

theorem row_val (P : ℝ → ℝ) (τ : Measure ℝ) [IsProbabilityMeasure τ] [NullSingletonClass τ] (hP : ∀ x, P x = τ.real (Set.Iic x)) (hsym : τ.map (fun x => -x) = τ) (t : ℝ) : 2 * |1 / 2 - P (-t)| = 1 - τ.real {s | |t| ≤ |s|} := by
  have hIci : ∀ a, τ.real (Set.Ici a) = 1 - P a := by
    intro a
    rw [hP, ← measureReal_congr (Iio_ae_eq_Iic (μ := τ) (a := a)), ← probReal_compl_eq_one_sub measurableSet_Iio, Set.compl_Iio]
  have hs : ∀ a, P (-a) = τ.real (Set.Ici a) := by
    intro a
    rw [hP]
    conv_lhs => rw [← hsym]
    rw [map_measureReal_apply measurable_neg measurableSet_Iic]
    congr 1
    ext x
    simp
  have key : ∀ a, 0 ≤ a → τ.real {s | |a| ≤ |s|} = 2 * P (-a) := by
    intro a ha
    rcases ha.eq_or_lt with rfl | ha
    · have h0 := hs 0
      have h1 := hIci 0
      rw [neg_zero] at h0
      have : {s : ℝ | |(0 : ℝ)| ≤ |s|} = Set.univ := by ext s; simp
      rw [this, probReal_univ, neg_zero]
      linarith
    · have : {s : ℝ | |a| ≤ |s|} = Set.Iic (-a) ∪ Set.Ici a := by
        ext s
        simp only [Set.mem_ofPred_eq, Set.mem_union, Set.mem_Iic, Set.mem_Ici, abs_of_pos ha, le_abs]
        constructor
        · rintro (h | h)
          · exact Or.inr h
          · exact Or.inl (by linarith)
        · rintro (h | h)
          · exact Or.inr (by linarith)
          · exact Or.inl h
      rw [this, measureReal_union _ measurableSet_Ici, ← hP, ← hs]
      · ring
      · rw [Set.disjoint_left]
        intro x h1 h2
        simp only [Set.mem_Iic, Set.mem_Ici] at h1 h2
        linarith
  have half : ∀ a, 0 ≤ a → P (-a) ≤ 1 / 2 := by
    intro a ha
    have := key a ha
    have h1 : τ.real {s | |a| ≤ |s|} ≤ 1 := measureReal_le_one
    linarith
  rcases le_total 0 t with ht | ht
  · rw [key t ht, abs_of_nonneg (by linarith [half t ht])]; ring
  · have hk := key (-t) (by linarith)
    have hh := half (-t) (by linarith)
    rw [abs_neg] at hk
    rw [hk]
    have : P (-t) = 1 - P (- -t) := by
      rw [hs t, hIci, neg_neg]
    rw [neg_neg] at hh ⊢
    rw [neg_neg] at this
    rw [this, abs_of_nonpos (by linarith)]; ring

/-- **C161.** After least squares with a positive variance for parameter i: with T any symmetric law without atoms whose distribution function the library's t function is, the p value is the probability that |T| is at least |estimate / standard error|, and the confidence is one less it. -/
theorem C161_p_value (P : ℤ → ℝ → ℝ) (e : Ols.Est n k) (i : Fin k) (hv : 0 < e.cov i i) (τ : Measure ℝ) [IsProbabilityMeasure τ] [NullSingletonClass τ] (hP : ∀ x, P (dof n n k) x = τ.real (Set.Iic x)) (hsym : τ.map (fun x => -x) = τ) :
    olsTests P e i = ⟨some (τ.real {s | |e.β i / √(e.cov i i)| ≤ |s|}), some (1 - τ.real {s | |e.β i / √(e.cov i i)| ≤ |s|})⟩ := by
  have h := row_val (P (dof n n k)) τ hP hsym (e.β i / √(e.cov i i))
  have hs : √(e.cov i i) ≠ 0 := (sqrt_pos.2 hv).ne'
  have hz : cdfZero (P (dof n n k)) (e.β i) √(e.cov i i) = some (P (dof n n k) (-(e.β i / √(e.cov i i)))) := by
    unfold cdfZero ddiv
    rw [if_pos hs]
    simp only
    congr 2
    ring
  unfold olsTests row
  rw [hz, Option.map_some, Option.map_some, h]
  congr 2
  ring

/-- **C161 (degrees of freedom).** With data in a matrix: rows less parameters if that is positive, else one. -/
theorem C161_df (n k v : ℕ) (hn : 0 < n) : dof n v k = max 1 ((n : ℤ) - k) := by
  unfold dof
  rw [if_pos hn.ne']
  split <;> omega

/-- **C161 (bounds).** p value and confidence are between 0 and 1 and sum to one, and the p value does not grow with |estimate / standard error|. -/
theorem C161_bounds (P : ℤ → ℝ → ℝ) (e e' : Ols.Est n k) (i : Fin k) (hv : 0 < e.cov i i) (hv' : 0 < e'.cov i i) (τ : Measure ℝ) [IsProbabilityMeasure τ] [NullSingletonClass τ] (hP : ∀ x, P (dof n n k) x = τ.real (Set.Iic x)) (hsym : τ.map (fun x => -x) = τ) :
    ∃ p p', olsTests P e i = ⟨some p, some (1 - p)⟩ ∧ olsTests P e' i = ⟨some p', some (1 - p')⟩ ∧ 0 ≤ p ∧ p ≤ 1 ∧ (|e.β i / √(e.cov i i)| ≤ |e'.β i / √(e'.cov i i)| → p' ≤ p) :=
  ⟨_, _, C161_p_value P e i hv τ hP hsym, C161_p_value P e' i hv' τ hP hsym, measureReal_nonneg, measureReal_le_one, fun h => measureReal_mono fun s hs => h.trans hs⟩

/-- A perfect fit: no variance. An estimate that is not zero has confidence 1, one that is has none. -/
theorem C161_perfect (P : ℤ → ℝ → ℝ) (e : Ols.Est n k) (i : Fin k) (hv : e.cov i i = 0) : olsTests P e i = if e.β i = 0 then ⟨none, none⟩ else ⟨some 0, some 1⟩ := by
  unfold olsTests row cdfZero
  rw [hv, sqrt_zero]
  unfold ddiv
  rcases lt_trichotomy (e.β i) 0 with h | h | h
  · rw [if_neg (by simp), if_pos (by linarith), if_neg h.ne]
    norm_num
  · simp [h]
  · rw [if_neg (by simp), if_neg (by linarith), if_pos (by linarith), if_neg h.ne']
    norm_num

/-- **C161 (other models) fails**: the variance is taken where the Normal wants the standard deviation: for a parameter 3 with variance 4 the test is of 3/4 and not of 3/2 standard deviations. -/
theorem C161_default_refuted (Φ : ℝ → ℝ) (β : Fin k → ℝ) (cov : Fin k → Fin k → ℝ) (i : Fin k) (hv : 0 < cov i i) (τ : Measure ℝ) [IsProbabilityMeasure τ] [NullSingletonClass τ] (hP : ∀ x, Φ x = τ.real (Set.Iic x)) (hsym : τ.map (fun x => -x) = τ) :
    defaultTests Φ β cov i = ⟨some (τ.real {s | |β i / cov i i| ≤ |s|}), some (1 - τ.real {s | |β i / cov i i| ≤ |s|})⟩ := by
  have h := row_val Φ τ hP hsym (β i / cov i i)
  have hz : cdfZero Φ (β i) (cov i i) = some (Φ (-(β i / cov i i))) := by
    unfold cdfZero ddiv
    rw [if_pos hv.ne']
    simp only
    congr 2
    ring
  unfold defaultTests row
  rw [hz, Option.map_some, Option.map_some, h]
  congr 2
  ring

/-- The hypotheses on the law are met by the standard Normal, the limit of the t distributions. -/
example : IsProbabilityMeasure (ProbabilityTheory.gaussianReal 0 1) ∧ NullSingletonClass (ProbabilityTheory.gaussianReal 0 1) ∧ (ProbabilityTheory.gaussianReal 0 1).map (fun x => -x) = ProbabilityTheory.gaussianReal 0 1 :=
  ⟨inferInstance, ProbabilityTheory.nullSingletonClass_gaussianReal one_ne_zero, by rw [ProbabilityTheory.gaussianReal_map_neg]; simp⟩

end Apop.ParamTest
