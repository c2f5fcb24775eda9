import Verif.Regress.OlsLik
import Mathlib.Analysis.Calculus.Deriv.Pow
import Mathlib.Analysis.Calculus.Deriv.Mul
import Mathlib.Analysis.Calculus.Deriv.Add

/-! # C158: the score of a linear regression -/

namespace Apop.Ols
open Matrix Real
variable {n k : ℕ}

/-! ## The models -/

/-- The sample variance of the errors, whose root is the `sigma` of model/apop_ols.c:198. -/
noncomputable def scoreVar (d : LData n k) (β : Fin (k + 1) → ℝ) : Option ℝ := Stats.vectorVar (some (List.ofFn (errorsOf d β))) none

/-- `ols_score`, model/apop_ols.c:177-213: the first element of the Normal's score of one error, (e - 0)/σ² (model/apop_normal.c:108-118, C75), times the weight and the column; none for divisions by a zero or NaN σ². -/
noncomputable def score (d : LData n k) (β : Fin (k + 1) → ℝ) : Option (Fin (k + 1) → ℝ) :=
  open Classical in
  (scoreVar d β).bind fun v => if v = 0 then none else some fun j => ∑ i, d.weight i * d.X i j * ((errorsOf d β i - 0) / (√v) ^ 2)

/-! ## Specification -/

/-- The weighted Normal log likelihood of parameters for a given error variance. -/
noncomputable def wll (d : In n (k + 1)) (v : ℝ) (b : Fin (k + 1) → ℝ) : ℝ :=
  ∑ i, d.weight i * log (ProbabilityTheory.gaussianPDFReal (∑ j, d.X i j * b j) v.toNNReal (d.y i))

/-! ## Proofs -/

theorem scoreVar_nonneg (d : LData n k) (β : Fin (k + 1) → ℝ) (v : ℝ) (h : scoreVar d β = some v) (hn : 2 ≤ n) : 0 ≤ v := by
  unfold scoreVar at h
  rw [Stats.C52_var _ (by simpa using hn)] at h
  cases h
  have h1 : (2 : ℝ) ≤ n := by exact_mod_cast hn
  refine div_nonneg ?_ (by simp; linarith)
  apply List.sum_nonneg
  intro x hx
  obtain ⟨y, _, rfl⟩ := List.mem_map.1 hx
  exact sq_nonneg _

theorem score_eq (d : In n (k + 1)) (b : Fin (k + 1) → ℝ) (v : ℝ) (hv : scoreVar d.data b = some v) (h0 : 0 < v) :
    score d.data b = some fun j => (∑ i, d.weight i * d.X i j * (∑ l, d.X i l * b l - d.y i)) / v := by
  unfold score
  rw [hv, Option.bind_some, if_neg h0.ne', sq_sqrt h0.le]
  congr 1
  funext j
  rw [Finset.sum_div]
  refine Finset.sum_congr rfl fun i _ => ?_
  rw [sub_zero, errorsOf_eq]
  simp only [predictor, dependent, In.data]
  have : LData.weight (⟨some d.y, d.X, d.w⟩ : LData n k) i = d.weight i := by unfold LData.weight In.weight; cases d.w <;> rfl
  rw [this]; ring

theorem wll_deriv (d : In n (k + 1)) (v : ℝ) (hv : 0 < v) (b : Fin (k + 1) → ℝ) (j : Fin (k + 1)) :
    HasDerivAt (fun t => wll d v (Function.update b j t)) (-((∑ i, d.weight i * d.X i j * (∑ l, d.X i l * b l - d.y i)) / v)) (b j) := by
  unfold wll
  simp only [log_gauss _ _ _ hv]
  have hsum : ∀ i t, ∑ l, d.X i l * Function.update b j t l = ∑ l, d.X i l * b l + d.X i j * (t - b j) := by
    intro i t
    have : ∀ l, d.X i l * Function.update b j t l = d.X i l * b l + if l = j then d.X i j * (t - b j) else 0 := by
      intro l
      by_cases h : l = j
      · subst h; simp; ring
      · simp [h]
    simp only [this, Finset.sum_add_distrib, Finset.sum_ite_eq', Finset.mem_univ, if_true]
  simp only [hsum]
  rw [Finset.sum_div, ← Finset.sum_neg_distrib]
  refine HasDerivAt.fun_sum fun i _ => ?_
  have h1 : HasDerivAt (fun t : ℝ => d.y i - (∑ l, d.X i l * b l + d.X i j * (t - b j))) (-(d.X i j)) (b j) := by
    have := (((hasDerivAt_id (b j)).sub_const (b j)).const_mul (d.X i j)).const_add (∑ l, d.X i l * b l) |>.const_sub (d.y i)
    simpa using this
  have h2 := (((h1.pow 2).div_const (2 * v)).const_sub (-(log (2 * π * v) / 2))).const_mul (d.weight i)
  refine h2.congr_deriv ?_
  simp only [sub_self, mul_zero, add_zero]
  push_cast
  field_simp
  ring

/-- **C158.** For prepared data, with weights or without, and errors that are not all alike: the score is, with the sign reversed, the gradient in the parameters of the weighted Normal log likelihood for the error variance held at the sample variance of the errors. -/
theorem C158_score (d : In n (k + 1)) (b : Fin (k + 1) → ℝ) (v : ℝ) (hv : scoreVar d.data b = some v) (h0 : 0 < v) :
    ∃ g, score d.data b = some g ∧ ∀ j, HasDerivAt (fun t => wll d v (Function.update b j t)) (-(g j)) (b j) :=
  ⟨_, score_eq d b v hv h0, fun j => wll_deriv d v h0 b j⟩

/-- **C158 (sign) fails as documented**: the score is the gradient only where both are zero; everywhere else it points downhill. -/
theorem C158_sign_refuted (d : In n (k + 1)) (b : Fin (k + 1) → ℝ) (v : ℝ) (hv : scoreVar d.data b = some v) (h0 : 0 < v) (g : Fin (k + 1) → ℝ) (hg : score d.data b = some g) (j : Fin (k + 1)) :
    HasDerivAt (fun t => wll d v (Function.update b j t)) (g j) (b j) ↔ g j = 0 := by
  obtain ⟨g', hg', hd⟩ := C158_score d b v hv h0
  rw [hg] at hg'; cases hg'
  constructor
  · intro h
    have := h.unique (hd j)
    linarith
  · intro h
    have := hd j
    rw [h] at this ⊢
    simpa using this

/-- **C158 (zero).** With weights not negative and the columns independent, the score is zero exactly at the least squares estimate. -/
theorem C158_zero (d : In n (k + 1)) (h : Nonneg d) (e : Est n (k + 1)) (he : estimate d = .ok e) (b : Fin (k + 1) → ℝ) (v : ℝ) (hv : scoreVar d.data b = some v) (h0 : 0 < v) :
    score d.data b = some 0 ↔ b = e.β := by
  rw [score_eq d b v hv h0, Option.some.injEq]
  constructor
  · intro hz
    obtain ⟨hd, rfl⟩ := estimate_ok he
    have hu : IsUnit ((scaledX d)ᵀ * scaledX d).det := isUnit_iff_ne_zero.2 hd
    have hj : (scaledX d)ᵀ *ᵥ (scaledX d *ᵥ b - scaledY d) = 0 := by
      funext j
      have := congrFun hz j
      simp only [Pi.zero_apply, div_eq_zero_iff, h0.ne', or_false] at this
      rw [Pi.zero_apply, ← this]
      simp only [Matrix.mulVec, dotProduct, Matrix.transpose_apply]
      refine Finset.sum_congr rfl fun i _ => ?_
      rw [Pi.sub_apply]
      rw [scaled_mulVec d b i, scaledY, ← rootW_sq d h i]
      simp only [scaledX]
      ring
    rw [Matrix.mulVec_sub, sub_eq_zero, Matrix.mulVec_mulVec] at hj
    simp only [finish]
    rw [← hj, Matrix.mulVec_mulVec, Matrix.nonsing_inv_mul _ hu, Matrix.one_mulVec]
  · rintro rfl
    funext j
    have := C86_normal d h e he j
    simp only [this, zero_div, Pi.zero_apply]

/-- Two rows, one column, no vector: the dependent variable 1, 3 on a constant. -/
noncomputable def raw : LData 2 0 := ⟨none, !![1; 3], none⟩

theorem raw_var (d : LData 2 0) (h0 : errorsOf d (fun _ => 2) 0 = 1) (h1 : errorsOf d (fun _ => 2) 1 = -1) : scoreVar d (fun _ => 2) = some 2 := by
  unfold scoreVar
  rw [Stats.C52_var _ (by simp)]
  simp only [List.ofFn_succ, List.ofFn_zero, List.map_cons, List.map_nil, List.sum_cons, List.sum_nil, List.length_cons, List.length_nil]
  simp only [Fin.succ_zero_eq_one, h0, h1, Option.some.injEq]
  norm_num

/-- **C158 (unprepared data) fails**: the log likelihood takes the first column of data without a vector to be a constant (C157), but the score multiplies by it; at the estimate of the mean of 1 and 3, where the prepared data have score zero, it is -1. -/
theorem C158_unprepared_refuted : score raw (fun _ => 2) = some (fun _ => -1) ∧ score ⟨some (shuffle raw.X).1, (shuffle raw.X).2, none⟩ (fun _ => 2) = some (fun _ => 0) := by
  have a0 : errorsOf raw (fun _ => 2) 0 = 1 := by simp [errorsOf, raw, dotProduct]; norm_num
  have a1 : errorsOf raw (fun _ => 2) 1 = -1 := by simp [errorsOf, raw, dotProduct]; norm_num
  have b0 : errorsOf ⟨some (shuffle raw.X).1, (shuffle raw.X).2, none⟩ (fun _ => 2) 0 = 1 := by simp [errorsOf, raw, dotProduct, shuffle]; norm_num
  have b1 : errorsOf ⟨some (shuffle raw.X).1, (shuffle raw.X).2, none⟩ (fun _ => 2) 1 = -1 := by simp [errorsOf, raw, dotProduct, shuffle]; norm_num
  have s2 : √(2 : ℝ) ^ 2 = 2 := sq_sqrt (by norm_num)
  constructor
  · unfold score
    rw [raw_var _ a0 a1, Option.bind_some, if_neg (by norm_num)]
    congr 1
    funext j
    rw [Fin.sum_univ_two, a0, a1, s2]
    fin_cases j
    simp [raw, LData.weight]
    norm_num
  · unfold score
    rw [raw_var _ b0 b1, Option.bind_some, if_neg (by norm_num)]
    congr 1
    funext j
    rw [Fin.sum_univ_two, b0, b1, s2]
    fin_cases j
    simp [raw, LData.weight, shuffle]
    norm_num

/-- The hypotheses are met: the mean of 1 and 3 from a parameter of 0 (errors -1 and -3, sample variance 2); the likelihood grows with the parameter there, but the score is -2. -/
example : scoreVar (In.data ⟨![1, 3], fun (_ : Fin 2) (_ : Fin 1) => 1, none⟩) (fun _ => 0) = some 2 ∧ score (In.data ⟨![1, 3], fun (_ : Fin 2) (_ : Fin 1) => 1, none⟩) (fun _ => 0) = some fun _ => -2 := by
  have hv : scoreVar (In.data ⟨![1, 3], fun (_ : Fin 2) (_ : Fin 1) => 1, none⟩) (fun _ => 0) = some 2 := by
    unfold scoreVar
    rw [Stats.C52_var _ (by simp)]
    simp [errorsOf, In.data, dotProduct]
    norm_num
  refine ⟨hv, ?_⟩
  rw [score_eq _ _ 2 hv (by norm_num)]
  congr 1
  funext j
  simp [In.weight]
  norm_num

end Apop.Ols
