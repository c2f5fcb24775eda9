import Verif.Base.C
import Mathlib.Analysis.Matrix.Order
import Mathlib.Probability.Distributions.Gaussian.Real
import Mathlib.MeasureTheory.Integral.Pi
import Mathlib.MeasureTheory.Measure.Lebesgue.Basic
import Mathlib.MeasureTheory.Group.Integral
import Mathlib.LinearAlgebra.Matrix.NonsingularInverse
import Mathlib.Tactic.Linarith
import Mathlib.LinearAlgebra.Matrix.ToLinearEquiv
import Mathlib.Analysis.SpecialFunctions.Log.Deriv
import Mathlib.Analysis.Complex.ExponentialBounds
import Mathlib.Tactic.FinCases

/-! # C140-C142: the multivariate Normal (model/apop_multivariate_normal.c)

Exact arithmetic; the data's width, the mean's length and the covariance's size agree. -/

namespace Apop.Density.Mvn

open Apop Real Matrix MeasureTheory

variable {n : ℕ}

/-- `gsl_blas_dsymv(CblasUpper, 1, sigma, x, 0, out)`: only the upper triangle of `sigma` is read. -/
def symv (M : Matrix (Fin n) (Fin n) ℝ) (x : Fin n → ℝ) : Fin n → ℝ := fun i => ∑ j, (if i ≤ j then M i j else M j i) * x j

/-- `x_prime_sigma_x`, model/apop_multivariate_normal.c:19-26. -/
def xSx (x : Fin n → ℝ) (M : Matrix (Fin n) (Fin n) ℝ) : ℝ := ∑ i, x i * symv M x i

/-- What `apop_multinormal_ll` returns. -/
inductive Ret where
  | val (x : ℝ)
  | ninf
  | nan

/-- The loop over the rows, model/apop_multivariate_normal.c:42-46. -/
noncomputable def rowLoop (μ : Fin n → ℝ) (inv : Matrix (Fin n) (Fin n) ℝ) : List (Fin n → ℝ) → ℝ → ℝ
  | [], ll => ll
  | x :: l, ll => rowLoop μ inv l (ll + -(xSx (fun i => x i - μ i) inv) / 2)

/-- `apop_multinormal_ll`, model/apop_multivariate_normal.c:28-51. `apop_det_and_inv` by its meaning: a singular matrix gives zero or NaN for the determinant, which are treated alike. -/
noncomputable def mvnLl (μ : Fin n → ℝ) (S : Matrix (Fin n) (Fin n) ℝ) (rows : List (Fin n → ℝ)) : Ret :=
  if S.det = 0 then .ninf
  else if S.det ≤ 0 then .nan
  else .val (rowLoop μ S⁻¹ rows 0 - rows.length * (log (2 * π) * n / 2 + 1 / 2 * log S.det))

/-! ### Specification -/

/-- The density of the multivariate Normal. -/
noncomputable def pdf (μ : Fin n → ℝ) (S : Matrix (Fin n) (Fin n) ℝ) (x : Fin n → ℝ) : ℝ :=
  exp (-((x - μ) ⬝ᵥ (S⁻¹ *ᵥ (x - μ))) / 2) / √((2 * π) ^ n * S.det)

/-! ### C140 -/

theorem xSx_eq (x : Fin n → ℝ) (M : Matrix (Fin n) (Fin n) ℝ) (h : M.IsSymm) : xSx x M = x ⬝ᵥ (M *ᵥ x) := by
  unfold xSx symv dotProduct mulVec dotProduct
  apply Finset.sum_congr rfl
  intro i _
  congr 1
  apply Finset.sum_congr rfl
  intro j _
  split
  · rfl
  · rw [h.apply]

theorem rowLoop_eq (μ : Fin n → ℝ) (M : Matrix (Fin n) (Fin n) ℝ) (h : M.IsSymm) (rows : List (Fin n → ℝ)) : ∀ ll,
    rowLoop μ M rows ll = ll + (rows.map fun x => -((x - μ) ⬝ᵥ (M *ᵥ (x - μ))) / 2).sum := by
  induction rows with
  | nil => intro ll; simp [rowLoop]
  | cons x l ih =>
    intro ll
    rw [rowLoop, ih, xSx_eq _ _ h, List.map_cons, List.sum_cons]
    have : (fun i => x i - μ i) = x - μ := rfl
    rw [this]; ring

theorem pdf_pos (μ : Fin n → ℝ) (S : Matrix (Fin n) (Fin n) ℝ) (hd : 0 < S.det) (x : Fin n → ℝ) : 0 < pdf μ S x := by unfold pdf; positivity

theorem log_pdf (μ : Fin n → ℝ) (S : Matrix (Fin n) (Fin n) ℝ) (hd : 0 < S.det) (x : Fin n → ℝ) :
    log (pdf μ S x) = -((x - μ) ⬝ᵥ (S⁻¹ *ᵥ (x - μ))) / 2 - (log (2 * π) * n / 2 + 1 / 2 * log S.det) := by
  unfold pdf
  rw [log_div (exp_pos _).ne' (by positivity), log_exp, log_sqrt (by positivity), log_mul (by positivity) hd.ne', log_pow]
  ring

/-- C140: for a symmetric covariance of positive determinant, the log likelihood is the log of the product of the densities of the rows. -/
theorem C140_ll (μ : Fin n → ℝ) (S : Matrix (Fin n) (Fin n) ℝ) (hs : S.IsSymm) (hd : 0 < S.det) (rows : List (Fin n → ℝ)) :
    mvnLl μ S rows = .val (log (rows.map (pdf μ S)).prod) := by
  unfold mvnLl
  have hinv : S⁻¹.IsSymm := by
    unfold Matrix.IsSymm; rw [transpose_nonsing_inv, hs]
  rw [if_neg hd.ne', if_neg (not_le.mpr hd), rowLoop_eq μ _ hinv, zero_add]
  congr 1
  induction rows with
  | nil => simp
  | cons x l ih =>
    have hne : (l.map (pdf μ S)).prod ≠ 0 := by
      apply List.prod_ne_zero
      intro h0
      obtain ⟨y, -, hy⟩ := List.mem_map.mp h0
      exact (pdf_pos μ S hd y).ne' hy
    rw [List.map_cons, List.map_cons, List.prod_cons, List.sum_cons, log_mul (pdf_pos μ S hd x).ne' hne, ← ih, log_pdf μ S hd x, List.length_cons]
    push_cast; ring

theorem sq_integral : ∫ z : Fin n → ℝ, exp (-(z ⬝ᵥ z) / 2) = √(2 * π) ^ n := by
  have h1 : ∀ z : Fin n → ℝ, exp (-(z ⬝ᵥ z) / 2) = ∏ i, (√(2 * π) * ProbabilityTheory.gaussianPDFReal 0 1 (z i)) := by
    intro z
    have : ∀ i, √(2 * π) * ProbabilityTheory.gaussianPDFReal 0 1 (z i) = exp (-(z i * z i) / 2) := by
      intro i
      rw [ProbabilityTheory.gaussianPDFReal_def]
      simp only [NNReal.coe_one, mul_one, sub_zero]
      rw [← mul_assoc, mul_inv_cancel₀ (by positivity), one_mul, sq]
    simp only [this]
    rw [← exp_sum]
    congr 1
    rw [dotProduct, ← Finset.sum_neg_distrib, Finset.sum_div]
  simp only [h1]
  rw [integral_fintype_prod_volume_eq_prod (fun (_ : Fin n) t => √(2 * π) * ProbabilityTheory.gaussianPDFReal 0 1 t)]
  simp only [integral_const_mul, ProbabilityTheory.integral_gaussianPDFReal_eq_one 0 (one_ne_zero), mul_one, Finset.prod_const, Finset.card_univ, Fintype.card_fin]

theorem factor (S : Matrix (Fin n) (Fin n) ℝ) (hS : S.PosDef) : ∃ A : Matrix (Fin n) (Fin n) ℝ, S = A * Aᵀ ∧ A.det ≠ 0 := by
  open scoped MatrixOrder in
  obtain ⟨B, hB⟩ := CStarAlgebra.nonneg_iff_eq_star_mul_self.mp (nonneg_iff_posSemidef.mpr hS.posSemidef)
  have e : S = Bᵀ * B := by
    rw [hB]; congr 1
  refine ⟨Bᵀ, by rw [transpose_transpose]; exact e, ?_⟩
  intro h
  have := hS.det_pos
  rw [e, det_mul, h, zero_mul] at this
  exact lt_irrefl _ this

/-- C140: for a positive definite covariance that density integrates to one. -/
theorem C140_integrates (μ : Fin n → ℝ) (S : Matrix (Fin n) (Fin n) ℝ) (hS : S.PosDef) : ∫ x, pdf μ S x = 1 := by
  obtain ⟨A, hA, hdet⟩ := factor S hS
  have hu : IsUnit A.det := isUnit_iff_ne_zero.mpr hdet
  have hSd : S.det = A.det ^ 2 := by rw [hA, det_mul, det_transpose, sq]
  let g : (Fin n → ℝ) → ℝ := fun y => exp (-(y ⬝ᵥ (S⁻¹ *ᵥ y)) / 2)
  have hg : Continuous g := by
    have : Continuous fun y : Fin n → ℝ => y ⬝ᵥ (S⁻¹ *ᵥ y) := by
      unfold dotProduct mulVec dotProduct; fun_prop
    fun_prop
  have h1 : ∫ x, pdf μ S x = (∫ y, g y) / √((2 * π) ^ n * S.det) := by
    unfold pdf
    rw [integral_div]
    congr 1
    exact integral_sub_right_eq_self g μ
  have h2 : ∫ y, g y = |A.det| * ∫ z, g (A *ᵥ z) := by
    have hm := Real.map_matrix_volume_pi_eq_smul_volume_pi hdet
    have hi : ∫ y, g y ∂(Measure.map (toLin' A) volume) = ∫ z, g (A *ᵥ z) := by
      rw [integral_map]
      · simp only [toLin'_apply]
      · exact (LinearMap.continuous_of_finiteDimensional _).aemeasurable
      · exact hg.aestronglyMeasurable
    rw [hm, integral_smul_measure, ENNReal.toReal_ofReal (abs_nonneg _)] at hi
    rw [← hi, smul_eq_mul, ← mul_assoc, ← abs_mul, mul_inv_cancel₀ hdet, abs_one, one_mul]
  have h3 : ∀ z, g (A *ᵥ z) = exp (-(z ⬝ᵥ z) / 2) := by
    intro z
    simp only [g]
    congr 3
    have e : S⁻¹ *ᵥ (A *ᵥ z) = (Aᵀ)⁻¹ *ᵥ z := by
      rw [mulVec_mulVec, hA, Matrix.mul_inv_rev, Matrix.mul_assoc, nonsing_inv_mul A hu, Matrix.mul_one]
    rw [e, dotProduct_comm, dotProduct_mulVec, ← mulVec_transpose, mulVec_mulVec, mul_nonsing_inv _ (by rwa [det_transpose]), one_mulVec]
  rw [h1, h2]
  simp only [h3]
  rw [sq_integral, hSd, Real.sqrt_mul (show 0 ≤ (2 * π) ^ n by positivity) (A.det ^ 2), sqrt_sq_eq_abs]
  have : √((2 * π) ^ n) = √(2 * π) ^ n := by
    rw [Real.sqrt_eq_iff_mul_self_eq (by positivity) (by positivity), ← mul_pow, mul_self_sqrt (by positivity)]
  rw [this]
  have h4 : 0 < √(2 * π) ^ n := by positivity
  have h5 : |A.det| ≠ 0 := abs_ne_zero.mpr hdet
  field_simp

/-- C140: a singular covariance gives minus infinity, one of negative determinant NaN. -/
theorem C140_degenerate (μ : Fin n → ℝ) (S : Matrix (Fin n) (Fin n) ℝ) (rows : List (Fin n → ℝ)) :
    (S.det = 0 → mvnLl μ S rows = .ninf) ∧ (S.det < 0 → mvnLl μ S rows = .nan) := by
  unfold mvnLl
  exact ⟨fun h => by rw [if_pos h], fun h => by rw [if_neg h.ne, if_pos h.le]⟩

/-- C140: with one dimension this is the Normal with the square root of the variance as its standard deviation. -/
theorem C140_one_dimension (m v : ℝ) (hv : 0 < v) (x : ℝ) : pdf (fun _ : Fin 1 => m) (fun _ _ => v) (fun _ => x) = ProbabilityTheory.gaussianPDFReal m v.toNNReal x := by
  have hdet : (Matrix.of fun _ _ : Fin 1 => v).det = v := by simp
  have hinv : (Matrix.of fun _ _ : Fin 1 => v)⁻¹ = Matrix.of fun _ _ => v⁻¹ := by
    apply inv_eq_right_inv
    ext i j
    fin_cases i; fin_cases j
    simp [Matrix.mul_apply, hv.ne']
  unfold pdf
  have e1 : (fun _ _ => v : Matrix (Fin 1) (Fin 1) ℝ) = Matrix.of fun _ _ => v := rfl
  rw [e1, hdet, hinv, ProbabilityTheory.gaussianPDFReal_def]
  simp only [coe_toNNReal _ hv.le]
  simp [dotProduct, mulVec]
  rw [div_eq_mul_inv, mul_comm]
  congr 2
  field_simp

/-- C140 (refuted): that a covariance which isn't symmetric is noticed or used as given: only the upper triangle of the inverse counts. -/
theorem C140_asymmetric_refuted : ∃ (S T : Matrix (Fin 2) (Fin 2) ℝ) (rows : List (Fin 2 → ℝ)), S ≠ T ∧ S.det = T.det ∧ 0 < S.det ∧
    (∀ x : Fin 2 → ℝ, xSx x S⁻¹ = xSx x T⁻¹) ∧ ∃ x, x ⬝ᵥ (S⁻¹ *ᵥ x) ≠ x ⬝ᵥ (T⁻¹ *ᵥ x) ∧ mvnLl 0 S rows = mvnLl 0 T rows := by
  have hS : (!![1, 0; 0, 1] : Matrix (Fin 2) (Fin 2) ℝ)⁻¹ = !![1, 0; 0, 1] := by
    apply inv_eq_right_inv; simp [Matrix.one_fin_two]
  have hT : (!![1, 0; 1, 1] : Matrix (Fin 2) (Fin 2) ℝ)⁻¹ = !![1, 0; -1, 1] := by
    apply inv_eq_right_inv; simp [Matrix.one_fin_two]
  have hx : ∀ x : Fin 2 → ℝ, xSx x (!![1, 0; 0, 1] : Matrix (Fin 2) (Fin 2) ℝ)⁻¹ = xSx x (!![1, 0; 1, 1] : Matrix (Fin 2) (Fin 2) ℝ)⁻¹ := by
    intro x; rw [hS, hT]; simp [xSx, symv, Fin.sum_univ_two]
  refine ⟨!![1, 0; 0, 1], !![1, 0; 1, 1], [fun _ => 1], ?_, by simp [det_fin_two], by simp [det_fin_two], hx, fun _ => 1, ?_, ?_⟩
  · intro h
    have := congrFun (congrFun h 1) 0
    simp at this
  · rw [hS, hT]; simp [dotProduct, mulVec, Fin.sum_univ_two]
  · have d1 : (!![1, 0; 0, 1] : Matrix (Fin 2) (Fin 2) ℝ).det = 1 := by simp [det_fin_two]
    have d2 : (!![1, 0; 1, 1] : Matrix (Fin 2) (Fin 2) ℝ).det = 1 := by simp [det_fin_two]
    simp only [mvnLl, d1, d2, rowLoop, hx]

/-- The standard bivariate Normal at the origin: log(1/(2π)). -/
example : mvnLl (0 : Fin 2 → ℝ) 1 [0] = .val (log (1 / (2 * π))) := by
  rw [C140_ll 0 1 (by simp [Matrix.IsSymm]) (by simp)]
  congr 2
  have : √((2 * π) ^ 2) = 2 * π := sqrt_sq (by positivity)
  simp [pdf, this]

/-! ### C141: estimation -/

/-- `apop_map(data, .fn_v=a_mean, .part='c')`, model/apop_multivariate_normal.c:57: the means of the columns. -/
noncomputable def colMeans (rows : List (Fin n → ℝ)) : Fin n → ℝ := fun j => (rows.map fun x => x j).sum / rows.length

theorem rowSum_apply (rows : List (Fin n → ℝ)) (j : Fin n) : (rows.sum) j = (rows.map fun x => x j).sum := by
  induction rows with
  | nil => simp
  | cons x l ih => simp [ih]

theorem sum_dev (rows : List (Fin n → ℝ)) (hr : rows ≠ []) : (rows.map fun x => x - colMeans rows).sum = 0 := by
  have h : ∀ (c : Fin n → ℝ) (l : List (Fin n → ℝ)), (l.map fun x => x - c).sum = l.sum - (l.length : ℝ) • c := by
    intro c l
    induction l with
    | nil => simp
    | cons x l ih => simp [ih, add_smul]; abel
  rw [h]
  funext j
  have hl : (rows.length : ℝ) ≠ 0 := by
    have := List.length_pos_iff.mpr hr; positivity
  simp [colMeans, rowSum_apply, mul_div_cancel₀ _ hl]

/-- C141: whatever positive definite covariance goes with it, the estimated mean — the columns' means — makes the data most likely. -/
theorem C141_mean_is_best (S : Matrix (Fin n) (Fin n) ℝ) (hS : S.PosDef) (rows : List (Fin n → ℝ)) (hr : rows ≠ []) (μ : Fin n → ℝ) :
    ∃ a b, mvnLl μ S rows = .val a ∧ mvnLl (colMeans rows) S rows = .val b ∧ a ≤ b ∧ (μ ≠ colMeans rows → a < b) := by
  have hd := hS.det_pos
  have hs : S.IsSymm := by have := hS.isHermitian; rwa [IsHermitian, conjTranspose_eq_transpose_of_trivial] at this
  have hinv : S⁻¹.IsSymm := by unfold Matrix.IsSymm; rw [transpose_nonsing_inv, hs]
  have hP : S⁻¹.PosDef := hS.inv
  have hval : ∀ m, mvnLl m S rows = .val ((rows.map fun x => -((x - m) ⬝ᵥ (S⁻¹ *ᵥ (x - m))) / 2).sum - rows.length * (log (2 * π) * n / 2 + 1 / 2 * log S.det)) := by
    intro m
    unfold mvnLl
    rw [if_neg hd.ne', if_neg (not_le.mpr hd), rowLoop_eq m _ hinv, zero_add]
  refine ⟨_, _, hval μ, hval _, ?_⟩
  have key : (rows.map fun x => -((x - μ) ⬝ᵥ (S⁻¹ *ᵥ (x - μ))) / 2).sum =
      (rows.map fun x => -((x - colMeans rows) ⬝ᵥ (S⁻¹ *ᵥ (x - colMeans rows))) / 2).sum - rows.length * (((colMeans rows - μ) ⬝ᵥ (S⁻¹ *ᵥ (colMeans rows - μ))) / 2) := by
    have hgen : ∀ (c : Fin n → ℝ) (l : List (Fin n → ℝ)), (l.map fun x => -((x - μ) ⬝ᵥ (S⁻¹ *ᵥ (x - μ))) / 2).sum =
        (l.map fun x => -((x - c) ⬝ᵥ (S⁻¹ *ᵥ (x - c))) / 2).sum - l.length * (((c - μ) ⬝ᵥ (S⁻¹ *ᵥ (c - μ))) / 2) - ((l.map fun x => x - c).sum ⬝ᵥ (S⁻¹ *ᵥ (c - μ))) := by
      intro c l
      induction l with
      | nil => simp
      | cons x l ih =>
        simp only [List.map_cons, List.sum_cons, ih, List.length_cons, add_dotProduct]
        have e : x - μ = (x - c) + (c - μ) := by abel
        have hsym : (c - μ) ⬝ᵥ (S⁻¹ *ᵥ (x - c)) = (x - c) ⬝ᵥ (S⁻¹ *ᵥ (c - μ)) := by
          rw [dotProduct_mulVec, dotProduct_comm, ← mulVec_transpose, hinv]
        rw [e, mulVec_add, dotProduct_add, add_dotProduct, add_dotProduct, hsym]
        push_cast; ring
    rw [hgen (colMeans rows) rows, sum_dev rows hr, zero_dotProduct, sub_zero]
  rw [key]
  have hl : (0 : ℝ) < rows.length := by have := List.length_pos_iff.mpr hr; exact_mod_cast this
  have hnn : 0 ≤ (colMeans rows - μ) ⬝ᵥ (S⁻¹ *ᵥ (colMeans rows - μ)) := by
    have := hP.posSemidef.dotProduct_mulVec_nonneg (colMeans rows - μ); simpa using this
  constructor
  · have : 0 ≤ rows.length * (((colMeans rows - μ) ⬝ᵥ (S⁻¹ *ᵥ (colMeans rows - μ))) / 2) := by positivity
    linarith
  · intro hne
    have hpos : 0 < (colMeans rows - μ) ⬝ᵥ (S⁻¹ *ᵥ (colMeans rows - μ)) := by
      have := hP.dotProduct_mulVec_pos (x := colMeans rows - μ) (sub_ne_zero.mpr (Ne.symm hne)); simpa using this
    have : 0 < rows.length * (((colMeans rows - μ) ⬝ᵥ (S⁻¹ *ᵥ (colMeans rows - μ))) / 2) := by positivity
    linarith

/-- `apop_data_covariance`, as used at model/apop_multivariate_normal.c:58: sums of products of deviations over the number of rows less one. -/
noncomputable def sampleCov (rows : List (Fin n → ℝ)) : Matrix (Fin n) (Fin n) ℝ :=
  Matrix.of fun j k => (rows.map fun x => (x j - colMeans rows j) * (x k - colMeans rows k)).sum / (rows.length - 1)

/-- `multivariate_normal_estimate`, model/apop_multivariate_normal.c:56-62: the mean, the covariance and the log likelihood filed on the info page. -/
noncomputable def estimate (rows : List (Fin n → ℝ)) : (Fin n → ℝ) × Matrix (Fin n) (Fin n) ℝ × Ret :=
  (colMeans rows, sampleCov rows, mvnLl (colMeans rows) (sampleCov rows) rows)

theorem sampleCov_mulVec (rows : List (Fin n → ℝ)) (v : Fin n → ℝ) (j : Fin n) :
    (sampleCov rows *ᵥ v) j = (rows.map fun x => (x j - colMeans rows j) * ((x - colMeans rows) ⬝ᵥ v)).sum / (rows.length - 1) := by
  have h : ∀ (c : Fin n → ℝ) (l : List (Fin n → ℝ)), ∑ k, (l.map fun x => (x j - c j) * (x k - c k)).sum * v k = (l.map fun x => (x j - c j) * ((x - c) ⬝ᵥ v)).sum := by
    intro c l
    induction l with
    | nil => simp
    | cons x l ih =>
      simp only [List.map_cons, List.sum_cons, add_mul, Finset.sum_add_distrib, ih, dotProduct, Finset.mul_sum, Pi.sub_apply, mul_assoc]
  show ∑ k, ((rows.map fun x => (x j - colMeans rows j) * (x k - colMeans rows k)).sum / (rows.length - 1)) * v k = _
  simp only [div_mul_eq_mul_div]
  rw [← Finset.sum_div, h]

/-- C141: with no more rows than columns (and at least two rows) the estimated covariance is singular, so the log likelihood reported is minus infinity. -/
theorem C141_few_rows (rows : List (Fin n → ℝ)) (h2 : 2 ≤ rows.length) (hn : rows.length ≤ n) :
    (estimate rows).2.1.det = 0 ∧ (estimate rows).2.2 = .ninf := by
  have hr : rows ≠ [] := by intro h; rw [h] at h2; simp at h2
  have hd : (sampleCov rows).det = 0 := by
    rw [← exists_mulVec_eq_zero_iff]
    let f : (Fin n → ℝ) →ₗ[ℝ] (Fin (rows.length - 1) → ℝ) := Matrix.toLin' (Matrix.of fun i : Fin (rows.length - 1) => rows[i.val + 1]'(by omega) - colMeans rows)
    have hk : LinearMap.ker f ≠ ⊥ := LinearMap.ker_ne_bot_of_finrank_lt (by simp; omega)
    obtain ⟨v, hv, hv0⟩ := Submodule.exists_mem_ne_zero_of_ne_bot hk
    refine ⟨v, hv0, ?_⟩
    have ht : ∀ (i : ℕ) (hi : i + 1 < rows.length), (rows[i + 1] - colMeans rows) ⬝ᵥ v = 0 := by
      intro i hi
      exact congrFun (LinearMap.mem_ker.mp hv) ⟨i, by omega⟩
    have hs := congrArg (fun w => w ⬝ᵥ v) (sum_dev rows hr)
    have hall : ∀ x ∈ rows, (x - colMeans rows) ⬝ᵥ v = 0 := by
      match hc : rows, hr with
      | y :: l, _ =>
        have hl : ∀ x ∈ l, (x - colMeans (y :: l)) ⬝ᵥ v = 0 := by
          intro x hx
          obtain ⟨i, hi, rfl⟩ := List.getElem_of_mem hx
          have := ht i (by rw [hc]; simpa using hi)
          simpa [hc] using this
        intro x hx
        rcases List.mem_cons.mp hx with rfl | hx
        · rw [hc] at hs
          have hz : ((l.map fun z => z - colMeans (x :: l)).sum) ⬝ᵥ v = 0 := by
            have hg : ∀ q : List (Fin n → ℝ), (∀ z ∈ q, z ⬝ᵥ v = 0) → q.sum ⬝ᵥ v = 0 := by
              intro q hq
              induction q with
              | nil => simp
              | cons z q ih => rw [List.sum_cons, add_dotProduct, hq z (by simp), ih fun w hw => hq w (by simp [hw]), add_zero]
            apply hg
            intro z hz
            obtain ⟨w, hw, rfl⟩ := List.mem_map.mp hz
            exact hl w hw
          simpa [add_dotProduct, hz] using hs
        · exact hl x hx
    funext j
    rw [sampleCov_mulVec]
    have : (rows.map fun x => (x j - colMeans rows j) * ((x - colMeans rows) ⬝ᵥ v)) = rows.map fun _ => (0 : ℝ) := by
      apply List.map_congr_left
      intro x hx
      rw [hall x hx, mul_zero]
    rw [this]; simp
  exact ⟨hd, (C140_degenerate _ _ _).1 hd⟩

/-- C141 (refuted): that the covariance estimated, too, makes the data most likely: for the numbers 0 and 2 the estimate is 2, and 1 does better. -/
theorem C141_covariance_refuted : ∃ (rows : List (Fin 1 → ℝ)) (S : Matrix (Fin 1) (Fin 1) ℝ) (a b : ℝ), S.PosDef ∧
    (estimate rows).2.2 = .val a ∧ mvnLl (colMeans rows) S rows = .val b ∧ a < b := by
  have hm : colMeans (n := 1) [fun _ => 0, fun _ => 2] = fun _ => 1 := by funext j; simp [colMeans]
  have hc : sampleCov (n := 1) [fun _ => 0, fun _ => 2] = Matrix.of fun _ _ => 2 := by
    ext i j; simp [sampleCov, hm]; norm_num
  have hinv : (Matrix.of fun _ _ : Fin 1 => (2 : ℝ))⁻¹ = Matrix.of fun _ _ => 1 / 2 := by
    apply inv_eq_right_inv; ext i j; fin_cases i; fin_cases j; simp [Matrix.mul_apply]
  have hdet : (Matrix.of fun _ _ : Fin 1 => (2 : ℝ)).det = 2 := by simp
  have h1 : (estimate (n := 1) [fun _ => 0, fun _ => 2]).2.2 = .val (-1 / 2 - 2 * (log (2 * π) * 1 / 2 + 1 / 2 * log 2)) := by
    unfold estimate; simp only [hm, hc]; unfold mvnLl
    rw [if_neg (by rw [hdet]; norm_num), if_neg (by rw [hdet]; norm_num), hdet, hinv]
    simp [rowLoop, xSx, symv]; ring
  have h2 : mvnLl (fun _ : Fin 1 => 1) 1 [fun _ => 0, fun _ => 2] = .val (-1 - 2 * (log (2 * π) * 1 / 2)) := by
    unfold mvnLl; rw [if_neg (by simp), if_neg (by simp)]
    simp [rowLoop, xSx, symv]; norm_num
  refine ⟨[fun _ => 0, fun _ => 2], 1, _, _, PosDef.one, h1, by rw [hm]; exact h2, ?_⟩
  have := Real.log_two_gt_d9
  linarith

/-- Two points in the plane. -/
example : (estimate (n := 2) [fun _ => 0, fun i => i.val]).2.2 = .ninf := (C141_few_rows _ (by simp) (by simp)).2

example : ∃ a b, mvnLl (fun _ : Fin 2 => 5) 1 [fun _ => 0, fun i => i.val] = .val a ∧ mvnLl (colMeans [fun _ => 0, fun i => i.val]) 1 [fun _ => 0, fun i : Fin 2 => (i.val : ℝ)] = .val b ∧ a < b := by
  obtain ⟨a, b, h1, h2, -, h4⟩ := C141_mean_is_best (1 : Matrix (Fin 2) (Fin 2) ℝ) PosDef.one [fun _ => 0, fun i => i.val] (by simp) (fun _ => 5)
  refine ⟨a, b, h1, h2, h4 ?_⟩
  intro h
  have := congrFun h 0
  simp [colMeans] at this

/-! ### C142: draws -/

/-- What `gsl_linalg_cholesky_decomp` leaves in its argument: the factor on and below the diagonal, its transpose above. -/
def cholOut (L : Matrix (Fin n) (Fin n) ℝ) : Matrix (Fin n) (Fin n) ℝ := Matrix.of fun i j => if j ≤ i then L i j else L j i

/-- The loop zeroing the upper triangle, model/apop_multivariate_normal.c:73-75. -/
def zeroUpper (M : Matrix (Fin n) (Fin n) ℝ) : Matrix (Fin n) (Fin n) ℝ := Matrix.of fun i j => if i < j then 0 else M i j

/-- `mvnrng`, model/apop_multivariate_normal.c:65-83, given the standard Normal draws `z` and the factor `L` GSL computes. -/
def mvnDraw (μ : Fin n → ℝ) (L : Matrix (Fin n) (Fin n) ℝ) (z : Fin n → ℝ) : Fin n → ℝ := fun i => (zeroUpper (cholOut L) *ᵥ z) i + μ i

/-- `L` is the Cholesky factor of `S`: zero above the diagonal, and `S = L Lᵀ`. -/
def IsCholesky (L S : Matrix (Fin n) (Fin n) ℝ) : Prop := (∀ i j, i < j → L i j = 0) ∧ L * Lᵀ = S

theorem zeroUpper_cholOut (L : Matrix (Fin n) (Fin n) ℝ) (h : ∀ i j, i < j → L i j = 0) : zeroUpper (cholOut L) = L := by
  ext i j
  simp only [zeroUpper, cholOut, Matrix.of_apply]
  split
  · rename_i hij; rw [h i j hij]
  · rename_i hij; rw [if_pos (not_lt.mp hij)]

/-- C142: the draws have exactly the distribution whose density the likelihood uses: the expectation of any measurable function of a draw, over independent standard Normal inputs, is its integral against that density. -/
theorem C142_law (μ : Fin n → ℝ) (L S : Matrix (Fin n) (Fin n) ℝ) (hL : IsCholesky L S) (hd : 0 < S.det) (f : (Fin n → ℝ) → ℝ) (hf : Measurable f) :
    ∫ z, f (mvnDraw μ L z) * ∏ i, ProbabilityTheory.gaussianPDFReal 0 1 (z i) = ∫ x, f x * pdf μ S x := by
  have hSd : S.det = L.det ^ 2 := by rw [← hL.2, det_mul, det_transpose, sq]
  have hdet : L.det ≠ 0 := by intro h; rw [hSd, h] at hd; simp at hd
  have hu : IsUnit L.det := isUnit_iff_ne_zero.mpr hdet
  have hdraw : ∀ z, mvnDraw μ L z = L *ᵥ z + μ := by intro z; funext i; rw [mvnDraw, zeroUpper_cholOut L hL.1]; rfl
  have hpm : Measurable fun x => f x * pdf μ S x := by
    apply hf.mul
    apply Continuous.measurable
    unfold pdf dotProduct mulVec dotProduct
    fun_prop
  let g : (Fin n → ℝ) → ℝ := fun y => f (y + μ) * pdf μ S (y + μ)
  have hgm : Measurable g := hpm.comp (measurable_id.add_const μ)
  have h1 : ∫ x, f x * pdf μ S x = ∫ y, g y := (integral_add_right_eq_self (fun x => f x * pdf μ S x) μ).symm
  have h2 : ∫ y, g y = |L.det| * ∫ z, g (L *ᵥ z) := by
    have hm := Real.map_matrix_volume_pi_eq_smul_volume_pi hdet
    have hi : ∫ y, g y ∂(Measure.map (toLin' L) volume) = ∫ z, g (L *ᵥ z) := by
      rw [integral_map]
      · simp only [toLin'_apply]
      · exact (LinearMap.continuous_of_finiteDimensional _).aemeasurable
      · exact hgm.aestronglyMeasurable
    rw [hm, integral_smul_measure, ENNReal.toReal_ofReal (abs_nonneg _)] at hi
    rw [← hi, smul_eq_mul, ← mul_assoc, ← abs_mul, mul_inv_cancel₀ hdet, abs_one, one_mul]
  rw [h1, h2, ← integral_const_mul]
  congr 1
  funext z
  simp only [g, hdraw]
  have hq : (L *ᵥ z) ⬝ᵥ (S⁻¹ *ᵥ (L *ᵥ z)) = z ⬝ᵥ z := by
    have e : S⁻¹ *ᵥ (L *ᵥ z) = (Lᵀ)⁻¹ *ᵥ z := by
      rw [mulVec_mulVec, ← hL.2, Matrix.mul_inv_rev, Matrix.mul_assoc, nonsing_inv_mul L hu, Matrix.mul_one]
    rw [e, dotProduct_comm, dotProduct_mulVec, ← mulVec_transpose, mulVec_mulVec, mul_nonsing_inv _ (by rwa [det_transpose]), one_mulVec]
  have hp : ∏ i, ProbabilityTheory.gaussianPDFReal 0 1 (z i) = exp (-(z ⬝ᵥ z) / 2) / √(2 * π) ^ n := by
    simp only [ProbabilityTheory.gaussianPDFReal_def, NNReal.coe_one, mul_one, sub_zero]
    rw [Finset.prod_mul_distrib, Finset.prod_const, Finset.card_univ, Fintype.card_fin, ← exp_sum, inv_pow, mul_comm, div_eq_mul_inv]
    congr 2
    rw [dotProduct, ← Finset.sum_neg_distrib, Finset.sum_div]
    simp only [sq]
  rw [hp, pdf, add_sub_cancel_right, hq, hSd, Real.sqrt_mul (show 0 ≤ (2 * π) ^ n by positivity) (L.det ^ 2), sqrt_sq_eq_abs]
  have : √((2 * π) ^ n) = √(2 * π) ^ n := by
    rw [Real.sqrt_eq_iff_mul_self_eq (by positivity) (by positivity), ← mul_pow, mul_self_sqrt (by positivity)]
  rw [this]
  have h4 : 0 < √(2 * π) ^ n := by positivity
  have h5 : |L.det| ≠ 0 := abs_ne_zero.mpr hdet
  field_simp

/-- C142: a draw moves from the mean by the factor times the standard draws; so element i never depends on standard draws after the i-th. -/
theorem C142_draw (μ : Fin n → ℝ) (L S : Matrix (Fin n) (Fin n) ℝ) (hL : IsCholesky L S) (z : Fin n → ℝ) : mvnDraw μ L z = μ + L *ᵥ z := by
  funext i; rw [mvnDraw, zeroUpper_cholOut L hL.1, Pi.add_apply, add_comm]

theorem chol_example : IsCholesky (!![2, 0; 1, 3] : Matrix (Fin 2) (Fin 2) ℝ) !![4, 2; 2, 10] := by
  constructor
  · intro i j h; fin_cases i <;> fin_cases j <;> simp_all
  · ext i j; fin_cases i <;> fin_cases j <;> simp [Matrix.mul_apply, Fin.sum_univ_two] <;> norm_num

example : (0 : ℝ) < (!![4, 2; 2, 10] : Matrix (Fin 2) (Fin 2) ℝ).det := by rw [det_fin_two]; norm_num

example : mvnDraw (fun _ : Fin 2 => 10) !![2, 0; 1, 3] (fun _ => 1) = fun i => if i = 0 then 12 else 14 := by
  rw [C142_draw _ _ _ chol_example]; funext i; fin_cases i <;> simp [mulVec, dotProduct, Fin.sum_univ_two] <;> norm_num

end Apop.Density.Mvn
