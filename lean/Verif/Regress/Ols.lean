import Verif.Base.C
import Verif.Stats.Variance
import Mathlib.LinearAlgebra.Matrix.NonsingularInverse
import Mathlib.LinearAlgebra.Matrix.PosDef
import Mathlib.Analysis.Real.Sqrt
import Mathlib.Algebra.Order.Star.Real
import Mathlib.Tactic.Linarith
import Mathlib.Tactic.FinCases
import Mathlib.Algebra.BigOperators.Fin
import Mathlib.Tactic.Positivity
import Mathlib.Tactic.FieldSimp

/-! # C86, C87: least squares and the coefficient of determination -/

namespace Apop.Ols
open Matrix
variable {n k : ℕ}

/-- The input of the estimation: dependent variable, matrix, and perhaps weights. -/
structure In (n k : ℕ) where
  y : Fin n → ℝ
  X : Matrix (Fin n) (Fin k) ℝ
  w : Option (Fin n → ℝ)

/-- What the estimation leaves: parameters, `<Covariance>`, `<Error variance>`, and the three columns of `<Predicted>`. -/
structure Est (n k : ℕ) where
  β : Fin k → ℝ
  cov : Matrix (Fin k) (Fin k) ℝ
  s2 : ℝ
  observed : Fin n → ℝ
  predicted : Fin n → ℝ
  residual : Fin n → ℝ

/-! ## The models -/

/-- `ols_shuffle`, model/apop_ols.c:95-106, for data without a vector: the first column moves to the vector and is replaced by ones. -/
def shuffle (m : Matrix (Fin n) (Fin (k + 1)) ℝ) : (Fin n → ℝ) × Matrix (Fin n) (Fin (k + 1)) ℝ := (fun i => m i 0, m.updateCol 0 fun _ => 1)

/-- The square roots of the weights, model/apop_ols.c:321-323; no weights are as weights of one. -/
noncomputable def rootW (w : Option (Fin n → ℝ)) : Fin n → ℝ := match w with | none => fun _ => 1 | some w => fun i => Real.sqrt (w i)

/-- The data times the roots of the weights, model/apop_ols.c:329-331. -/
noncomputable def scaledX (d : In n k) : Matrix (Fin n) (Fin k) ℝ := fun i j => d.X i j * rootW d.w i

noncomputable def scaledY (d : In n k) : Fin n → ℝ := fun i => d.y i * rootW d.w i

/-- `apop_det_and_inv`, apop_linear_algebra.m4.c:41-65, by GSL's LU inverse: none of a singular matrix. -/
noncomputable def inv (M : Matrix (Fin k) (Fin k) ℝ) : Option (Matrix (Fin k) (Fin k) ℝ) := by classical exact if M.det = 0 then none else some M⁻¹

/-- The degrees of freedom `size1 - size2`, of type `size_t`, model/apop_ols.c:225. -/
def df (n k : ℕ) : ℕ := if k ≤ n then n - k else 2 ^ 64 + n - k

/-- `xpxinvxpy`, model/apop_ols.c:203-243, with what is wanted left at the defaults, from the inverse of X'X. -/
noncomputable def finish (A : Matrix (Fin n) (Fin k) ℝ) (y : Fin n → ℝ) (I : Matrix (Fin k) (Fin k) ℝ) : Est n k :=
  let β := I *ᵥ (Aᵀ *ᵥ y)
  let error := A *ᵥ β - y
  let s2 := (error ⬝ᵥ error) / df n k
  ⟨β, s2 • I, s2, y, y + error, error⟩

/-- `apop_estimate_OLS`, model/apop_ols.c:308-353, with the default settings (products by C85). With X'X singular there is no inverse, and the parameters made from it are NULL: undefined. -/
noncomputable def estimate (d : In n k) : Res (Est n k) :=
  match inv ((scaledX d)ᵀ * scaledX d) with
  | none => .ub
  | some I => .ok (finish (scaledX d) (scaledY d) I)

/-- What `apop_estimate_coefficient_of_determination`, apop_regression.m4.c:523-549, adds to the info page. -/
structure R2 where
  sse : ℝ
  sst : ℝ
  rsq : ℝ
  adj : ℝ
  ssr : ℝ

/-- The sum of squared errors, lines 531-538. -/
noncomputable def sse (w : Option (Fin n → ℝ)) (residual : Fin n → ℝ) : ℝ :=
  match w with
  | none => residual ⬝ᵥ residual
  | some w => (fun i => w i * residual i) ⬝ᵥ residual

/-- The same, from the `<Predicted>` page, the weights and the number of columns of the data; the variance may be NaN (C52). -/
noncomputable def r2 (w : Option (Fin n → ℝ)) (cols : ℕ) (observed residual : Fin n → ℝ) : Option R2 :=
  (Stats.vectorVar (some (List.ofFn observed)) (w.map List.ofFn)).map fun var =>
    let sst := var * ((n : ℝ) - 1)
    let rsq := 1 - sse w residual / sst
    ⟨sse w residual, sst, rsq, 1 - ((n : ℝ) - 1) / (n - ((cols : ℝ) - 1)) * (1 - rsq), sst - sse w residual⟩

/-! ## Specification -/

/-- The weights, ones if there are none. -/
def In.weight (d : In n k) : Fin n → ℝ := match d.w with | none => fun _ => 1 | some w => w

/-- The weighted sum of squared errors of a parameter vector. -/
def loss (d : In n k) (b : Fin k → ℝ) : ℝ := ∑ i, d.weight i * (d.y i - ∑ j, d.X i j * b j) ^ 2

/-- The columns are independent, as far as the weights see them. -/
def FullRank (d : In n k) : Prop := ∀ b : Fin k → ℝ, (∀ i, d.weight i ≠ 0 → ∑ j, d.X i j * b j = 0) → b = 0

/-- Weights are not negative. -/
def Nonneg (d : In n k) : Prop := ∀ i, 0 ≤ d.weight i

/-! ## Proofs -/

theorem rootW_sq (d : In n k) (h : Nonneg d) (i : Fin n) : rootW d.w i * rootW d.w i = d.weight i := by
  have hi := h i
  revert hi
  unfold rootW In.weight
  cases d.w with
  | none => simp
  | some w => intro hi; exact Real.mul_self_sqrt hi

theorem rootW_zero (d : In n k) (h : Nonneg d) (i : Fin n) : rootW d.w i = 0 ↔ d.weight i = 0 := by
  rw [← rootW_sq d h i]; simp

theorem scaled_mulVec (d : In n k) (b : Fin k → ℝ) (i : Fin n) : (scaledX d *ᵥ b) i = (∑ j, d.X i j * b j) * rootW d.w i := by
  simp only [Matrix.mulVec, dotProduct, scaledX]
  rw [Finset.sum_mul]
  exact Finset.sum_congr rfl fun j _ => by ring

theorem loss_eq (d : In n k) (h : Nonneg d) (b : Fin k → ℝ) : loss d b = (scaledX d *ᵥ b - scaledY d) ⬝ᵥ (scaledX d *ᵥ b - scaledY d) := by
  unfold loss dotProduct
  refine Finset.sum_congr rfl fun i _ => ?_
  rw [Pi.sub_apply, scaled_mulVec, scaledY, ← rootW_sq d h i]
  ring

theorem gram_vec (A : Matrix (Fin n) (Fin k) ℝ) (b : Fin k → ℝ) : (Aᵀ * A) *ᵥ b = 0 → A *ᵥ b = 0 := by
  intro h
  have : (A *ᵥ b) ⬝ᵥ (A *ᵥ b) = 0 := by
    rw [Matrix.dotProduct_mulVec, Matrix.vecMul_mulVec, ← Matrix.dotProduct_mulVec, h]
    simp
  exact dotProduct_self_eq_zero.1 this

/-- The Gram matrix is invertible exactly at full rank. -/
theorem gram_det (d : In n k) (h : Nonneg d) : ((scaledX d)ᵀ * scaledX d).det ≠ 0 ↔ FullRank d := by
  have e : ∀ b : Fin k → ℝ, scaledX d *ᵥ b = 0 ↔ ∀ i, d.weight i ≠ 0 → ∑ j, d.X i j * b j = 0 := by
    intro b
    constructor
    · intro hb i hi
      have := congrFun hb i
      rw [scaled_mulVec, Pi.zero_apply] at this
      rcases mul_eq_zero.1 this with h0 | h0
      · exact h0
      · exact absurd ((rootW_zero d h i).1 h0) hi
    · intro hb
      funext i
      rw [scaled_mulVec, Pi.zero_apply]
      by_cases hi : d.weight i = 0
      · rw [(rootW_zero d h i).2 hi, mul_zero]
      · rw [hb i hi, zero_mul]
  constructor
  · intro hd b hb
    by_contra hb0
    apply hd
    rw [← Matrix.exists_mulVec_eq_zero_iff]
    refine ⟨b, hb0, ?_⟩
    rw [← Matrix.mulVec_mulVec, (e b).2 hb, Matrix.mulVec_zero]
  · intro hf hd
    obtain ⟨b, hb0, hb⟩ := Matrix.exists_mulVec_eq_zero_iff.2 hd
    exact hb0 (hf b ((e b).1 (gram_vec _ b hb)))

/-- **C86 (when).** With weights not negative, the estimation goes through exactly when the columns are independent. -/
theorem C86_when (d : In n k) (h : Nonneg d) : (∃ e, estimate d = .ok e) ↔ FullRank d := by
  rw [← gram_det d h]
  unfold estimate inv
  by_cases hd : ((scaledX d)ᵀ * scaledX d).det = 0
  · simp [hd]
  · simp [hd]

theorem estimate_ok {d : In n k} {e : Est n k} (he : estimate d = .ok e) : ((scaledX d)ᵀ * scaledX d).det ≠ 0 ∧ e = finish (scaledX d) (scaledY d) ((scaledX d)ᵀ * scaledX d)⁻¹ := by
  unfold estimate inv at he
  by_cases hd : ((scaledX d)ᵀ * scaledX d).det = 0
  · simp [hd] at he
  · simp only [hd, if_false, Res.ok.injEq] at he
    exact ⟨hd, he.symm⟩

theorem normal_aux (A : Matrix (Fin n) (Fin k) ℝ) (y : Fin n → ℝ) (hd : (Aᵀ * A).det ≠ 0) : Aᵀ *ᵥ (A *ᵥ ((Aᵀ * A)⁻¹ *ᵥ (Aᵀ *ᵥ y)) - y) = 0 := by
  have hu : IsUnit (Aᵀ * A).det := isUnit_iff_ne_zero.2 hd
  rw [Matrix.mulVec_sub, Matrix.mulVec_mulVec, Matrix.mulVec_mulVec, Matrix.mul_nonsing_inv _ hu, Matrix.one_mulVec, sub_self]

theorem pythagoras (A : Matrix (Fin n) (Fin k) ℝ) (y : Fin n → ℝ) (β b : Fin k → ℝ) (h : Aᵀ *ᵥ (A *ᵥ β - y) = 0) :
    (A *ᵥ b - y) ⬝ᵥ (A *ᵥ b - y) = (A *ᵥ β - y) ⬝ᵥ (A *ᵥ β - y) + (A *ᵥ (b - β)) ⬝ᵥ (A *ᵥ (b - β)) := by
  have hx : (A *ᵥ (b - β)) ⬝ᵥ (A *ᵥ β - y) = 0 := by
    rw [dotProduct_comm, Matrix.dotProduct_mulVec, ← Matrix.mulVec_transpose, h, zero_dotProduct]
  have e : A *ᵥ b - y = (A *ᵥ β - y) + A *ᵥ (b - β) := by rw [Matrix.mulVec_sub]; abel
  rw [e, dotProduct_add, add_dotProduct, add_dotProduct, hx, dotProduct_comm (A *ᵥ β - y) (A *ᵥ (b - β)), hx]
  ring

/-- **C86 (normal equations).** The weighted residuals are orthogonal to every column. -/
theorem C86_normal (d : In n k) (h : Nonneg d) (e : Est n k) (he : estimate d = .ok e) (j : Fin k) : ∑ i, d.weight i * d.X i j * (∑ l, d.X i l * e.β l - d.y i) = 0 := by
  obtain ⟨hd, rfl⟩ := estimate_ok he
  have := congrFun (normal_aux (scaledX d) (scaledY d) hd) j
  have hβ : (finish (scaledX d) (scaledY d) ((scaledX d)ᵀ * scaledX d)⁻¹).β = ((scaledX d)ᵀ * scaledX d)⁻¹ *ᵥ ((scaledX d)ᵀ *ᵥ scaledY d) := rfl
  rw [hβ]
  generalize ((scaledX d)ᵀ * scaledX d)⁻¹ *ᵥ ((scaledX d)ᵀ *ᵥ scaledY d) = β at this ⊢
  have e0 : ((scaledX d)ᵀ *ᵥ (scaledX d *ᵥ β - scaledY d)) j = ∑ i, scaledX d i j * ((scaledX d *ᵥ β) i - scaledY d i) := rfl
  rw [e0, Pi.zero_apply] at this
  rw [← this]
  refine Finset.sum_congr rfl fun i _ => ?_
  rw [scaled_mulVec, scaledY, ← rootW_sq d h i]
  simp only [scaledX]
  ring

/-- **C86 (least squares).** For any data and weights not negative: of all parameter vectors the one estimated, and only that one, has the least weighted sum of squared errors. -/
theorem C86_least (d : In n k) (h : Nonneg d) (e : Est n k) (he : estimate d = .ok e) (b : Fin k → ℝ) : loss d e.β ≤ loss d b ∧ (loss d b = loss d e.β → b = e.β) := by
  obtain ⟨hd, rfl⟩ := estimate_ok he
  have hn := normal_aux (scaledX d) (scaledY d) hd
  have hp := pythagoras (scaledX d) (scaledY d) _ b hn
  rw [loss_eq d h, loss_eq d h]
  set β := (finish (scaledX d) (scaledY d) ((scaledX d)ᵀ * scaledX d)⁻¹).β with hβ
  change (scaledX d *ᵥ b - scaledY d) ⬝ᵥ (scaledX d *ᵥ b - scaledY d) = (scaledX d *ᵥ β - scaledY d) ⬝ᵥ (scaledX d *ᵥ β - scaledY d) + (scaledX d *ᵥ (b - β)) ⬝ᵥ (scaledX d *ᵥ (b - β)) at hp
  have hnn : 0 ≤ (scaledX d *ᵥ (b - β)) ⬝ᵥ (scaledX d *ᵥ (b - β)) := by
    unfold dotProduct; exact Finset.sum_nonneg fun i _ => mul_self_nonneg _
  refine ⟨by linarith, ?_⟩
  intro h0
  have hz : (scaledX d *ᵥ (b - β)) ⬝ᵥ (scaledX d *ᵥ (b - β)) = 0 := by linarith
  have hz' := dotProduct_self_eq_zero.1 hz
  by_contra hne
  apply hd
  rw [← Matrix.exists_mulVec_eq_zero_iff]
  refine ⟨b - β, sub_ne_zero.2 hne, ?_⟩
  rw [← Matrix.mulVec_mulVec, hz', Matrix.mulVec_zero]

/-- **C86 (exact data).** If the dependent variable is exactly linear in the columns, the coefficients are found exactly, and the error variance is zero. -/
theorem C86_exact (d : In n k) (h : Nonneg d) (e : Est n k) (he : estimate d = .ok e) (b : Fin k → ℝ) (hb : ∀ i, d.y i = ∑ j, d.X i j * b j) : e.β = b ∧ e.s2 = 0 := by
  have hl : loss d b = 0 := by simp [loss, hb]
  have hle := C86_least d h e he b
  have hnn : 0 ≤ loss d e.β := Finset.sum_nonneg fun i _ => mul_nonneg (h i) (sq_nonneg _)
  have h0 : loss d e.β = 0 := by linarith [hle.1]
  refine ⟨(hle.2 (by rw [hl, h0])).symm, ?_⟩
  obtain ⟨hd, rfl⟩ := estimate_ok he
  rw [loss_eq d h] at h0
  simp only [finish] at h0 ⊢
  rw [h0, zero_div]

/-- **C86 (equivariance).** Adding a linear function of the columns to the dependent variable adds its coefficients to the estimate and leaves the error variance and covariance alone. -/
theorem C86_shift (d : In n k) (h : Nonneg d) (c : Fin k → ℝ) (e e' : Est n k) (he : estimate d = .ok e) (he' : estimate { d with y := fun i => d.y i + ∑ j, d.X i j * c j } = .ok e') :
    e'.β = e.β + c ∧ e'.s2 = e.s2 ∧ e'.cov = e.cov := by
  have hl : ∀ b, loss { d with y := fun i => d.y i + ∑ j, d.X i j * c j } (b + c) = loss d b := by
    intro b
    unfold loss
    refine Finset.sum_congr rfl fun i _ => ?_
    have : ∑ j, d.X i j * (b + c) j = ∑ j, d.X i j * b j + ∑ j, d.X i j * c j := by rw [← Finset.sum_add_distrib]; exact Finset.sum_congr rfl fun j _ => by rw [Pi.add_apply]; ring
    simp only [In.weight] at *
    rw [this]; ring
  have hβ : e'.β = e.β + c := by
    have h1 := C86_least _ (show Nonneg { d with y := fun i => d.y i + ∑ j, d.X i j * c j } from h) e' he' (e.β + c)
    have h2 := (C86_least d h e he (e'.β - c)).1
    have h3 := hl (e'.β - c)
    rw [sub_add_cancel] at h3
    have h4 := hl e.β
    exact (h1.2 (by linarith [h1.1])).symm
  have hs : loss { d with y := fun i => d.y i + ∑ j, d.X i j * c j } e'.β = loss d e.β := by rw [hβ, hl]
  obtain ⟨hd, rfl⟩ := estimate_ok he
  obtain ⟨hd', rfl⟩ := estimate_ok he'
  rw [loss_eq _ (show Nonneg { d with y := fun i => d.y i + ∑ j, d.X i j * c j } from h), loss_eq d h] at hs
  have hs2 : (finish (scaledX d) (scaledY { d with y := fun i => d.y i + ∑ j, d.X i j * c j }) ((scaledX d)ᵀ * scaledX d)⁻¹).s2 = (finish (scaledX d) (scaledY d) ((scaledX d)ᵀ * scaledX d)⁻¹).s2 := by
    simp only [finish] at hs ⊢
    rw [show scaledX { d with y := fun i => d.y i + ∑ j, d.X i j * c j } = scaledX d from rfl] at hs
    rw [hs]
  refine ⟨hβ, hs2, ?_⟩
  change (finish _ _ _).s2 • _ = (finish _ _ _).s2 • _
  rw [show scaledX { d with y := fun i => d.y i + ∑ j, d.X i j * c j } = scaledX d from rfl, hs2]

/-- **C86 (covariance).** With more rows than columns: the error variance is the least loss over the degrees of freedom, the covariance is it times the inverse of X'WX, and so symmetric, with diagonal elements (the parameters' variances) not negative. -/
theorem C86_covariance (d : In n k) (h : Nonneg d) (hk : k < n) (e : Est n k) (he : estimate d = .ok e) :
    e.s2 = loss d e.β / ((n : ℝ) - k) ∧ e.cov * (Matrix.of fun j l => ∑ i, d.weight i * d.X i j * d.X i l) = e.s2 • 1 ∧ e.covᵀ = e.cov ∧ ∀ j, 0 ≤ e.cov j j := by
  have hs0 : e.s2 = loss d e.β / ((n : ℝ) - k) := by
    obtain ⟨hd, rfl⟩ := estimate_ok he
    rw [loss_eq d h]
    simp only [finish, df, hk.le, if_true]
    rw [Nat.cast_sub hk.le]
  obtain ⟨hd, rfl⟩ := estimate_ok he
  have hu : IsUnit ((scaledX d)ᵀ * scaledX d).det := isUnit_iff_ne_zero.2 hd
  have hg : (Matrix.of fun j l => ∑ i, d.weight i * d.X i j * d.X i l) = (scaledX d)ᵀ * scaledX d := by
    ext j l
    rw [Matrix.mul_apply, Matrix.of_apply]
    refine Finset.sum_congr rfl fun i _ => ?_
    rw [Matrix.transpose_apply, ← rootW_sq d h i]
    simp only [scaledX]; ring
  have hps : ((scaledX d)ᵀ * scaledX d).PosSemidef := by
    have := Matrix.posSemidef_conjTranspose_mul_self (scaledX d)
    rwa [Matrix.conjTranspose_eq_transpose_of_trivial] at this
  refine ⟨hs0, ?_, ?_, ?_⟩
  · rw [hg]
    simp only [finish]
    rw [Matrix.smul_mul, Matrix.nonsing_inv_mul _ hu]
  · simp only [finish]
    rw [Matrix.transpose_smul, Matrix.transpose_nonsing_inv, Matrix.transpose_mul, Matrix.transpose_transpose]
  · intro j
    have hsn : 0 ≤ (finish (scaledX d) (scaledY d) ((scaledX d)ᵀ * scaledX d)⁻¹).s2 := by
      rw [hs0]
      apply div_nonneg
      · exact Finset.sum_nonneg fun i _ => mul_nonneg (h i) (sq_nonneg _)
      · have : (k : ℝ) < n := by exact_mod_cast hk
        linarith
    have hinv := hps.inv.diag_nonneg (i := j)
    have : (finish (scaledX d) (scaledY d) ((scaledX d)ᵀ * scaledX d)⁻¹).cov j j = (finish (scaledX d) (scaledY d) ((scaledX d)ᵀ * scaledX d)⁻¹).s2 * ((scaledX d)ᵀ * scaledX d)⁻¹ j j := rfl
    rw [this]
    exact mul_nonneg hsn hinv

/-- **C86 (predictions).** Without weights, the page has in its columns the dependent variable, the linear prediction by the estimate, and the second less the first. -/
theorem C86_page (y : Fin n → ℝ) (X : Matrix (Fin n) (Fin k) ℝ) (e : Est n k) (he : estimate ⟨y, X, none⟩ = .ok e) :
    e.observed = y ∧ (∀ i, e.predicted i = ∑ j, X i j * e.β j) ∧ e.residual = e.predicted - e.observed := by
  obtain ⟨hd, rfl⟩ := estimate_ok he
  have hy : scaledY ⟨y, X, none⟩ = y := by funext i; simp [scaledY, rootW]
  refine ⟨by simp only [finish, hy], ?_, by simp [finish]⟩
  intro i
  have := scaled_mulVec ⟨y, X, none⟩ (finish (scaledX ⟨y, X, none⟩) (scaledY ⟨y, X, none⟩) ((scaledX ⟨y, X, none⟩)ᵀ * scaledX ⟨y, X, none⟩)⁻¹).β i
  simp only [rootW, mul_one] at this
  rw [← this]
  simp [finish]

/-- **C86 (residuals) fails as documented**: "the third column is always the first minus the second" is so only where they are equal. -/
theorem C86_residual_refuted (d : In n k) (e : Est n k) (he : estimate d = .ok e) (i : Fin n) : e.residual i = e.observed i - e.predicted i ↔ e.residual i = 0 := by
  obtain ⟨hd, rfl⟩ := estimate_ok he
  simp only [finish, Pi.add_apply, Pi.sub_apply]
  constructor <;> intro h <;> linarith

/-- With weights the page is not about the data, but the data times the roots of the weights. -/
theorem C86_weighted_page (y w : Fin n → ℝ) (X : Matrix (Fin n) (Fin k) ℝ) (e : Est n k) (he : estimate ⟨y, X, some w⟩ = .ok e) :
    (∀ i, e.observed i = y i * Real.sqrt (w i)) ∧ (∀ i, e.predicted i = (∑ j, X i j * e.β j) * Real.sqrt (w i)) ∧ ∀ i, e.residual i = ((∑ j, X i j * e.β j) - y i) * Real.sqrt (w i) := by
  obtain ⟨hd, rfl⟩ := estimate_ok he
  have hb : ∀ i, (scaledX ⟨y, X, some w⟩ *ᵥ (finish (scaledX ⟨y, X, some w⟩) (scaledY ⟨y, X, some w⟩) ((scaledX ⟨y, X, some w⟩)ᵀ * scaledX ⟨y, X, some w⟩)⁻¹).β) i = (∑ j, X i j * (finish (scaledX ⟨y, X, some w⟩) (scaledY ⟨y, X, some w⟩) ((scaledX ⟨y, X, some w⟩)ᵀ * scaledX ⟨y, X, some w⟩)⁻¹).β j) * Real.sqrt (w i) :=
    fun i => scaled_mulVec ⟨y, X, some w⟩ _ i
  refine ⟨fun i => rfl, fun i => ?_, fun i => ?_⟩
  · rw [← hb i]; simp [finish]
  · rw [sub_mul, ← hb i]; rfl

/-- **C86 (preparing).** Data without a vector: the estimate is of the first column on a constant and the other columns. -/
theorem C86_shuffle (m : Matrix (Fin n) (Fin (k + 1)) ℝ) : (∀ i, (shuffle m).1 i = m i 0) ∧ (∀ i, (shuffle m).2 i 0 = 1) ∧ ∀ i (j : Fin k), (shuffle m).2 i j.succ = m i j.succ := by
  refine ⟨fun _ => rfl, fun i => by simp [shuffle], fun i j => ?_⟩
  simp [shuffle, Matrix.updateCol_ne (Fin.succ_ne_zero j)]

/-! ## C87 -/

/-- The mean. -/
noncomputable def mean (v : Fin n → ℝ) : ℝ := (∑ i, v i) / n

theorem r2_none (hn : 2 ≤ n) (cols : ℕ) (o e : Fin n → ℝ) : ∃ r, r2 none cols o e = some r ∧ r.sse = ∑ i, e i ^ 2 ∧ r.sst = ∑ i, (o i - mean o) ^ 2 ∧ r.rsq = 1 - r.sse / r.sst ∧ r.ssr = r.sst - r.sse ∧ r.adj = 1 - ((n : ℝ) - 1) / (n - ((cols : ℝ) - 1)) * (1 - r.rsq) := by
  have hv := Stats.C52_var (List.ofFn o) (by rwa [List.length_ofFn])
  have hn0 : (n : ℝ) - 1 ≠ 0 := by
    have : (2 : ℝ) ≤ n := by exact_mod_cast hn
    linarith
  unfold r2
  rw [Option.map_none, hv]
  refine ⟨_, rfl, ?_, ?_, rfl, rfl, rfl⟩
  · simp only [sse, dotProduct]
    exact Finset.sum_congr rfl fun i _ => by ring
  · simp only [List.map_ofFn, List.sum_ofFn, List.length_ofFn, Function.comp_def, mean]
    rw [div_mul_cancel₀ _ hn0]

/-- **C87.** Without weights, two rows or more, and a constant among the columns (or any combination of them constant), after least squares the SSE is the sum of squared differences of observed and predicted, SST that of the observed around their mean, SSR that of the predicted around the mean of the observed; R² is 1 - SSE/SST and, unless the dependent variable is constant, between zero and one. -/
theorem C87_r2 (y : Fin n → ℝ) (X : Matrix (Fin n) (Fin k) ℝ) (hn : 2 ≤ n) (c : Fin k → ℝ) (hc : ∀ i, ∑ j, X i j * c j = 1) (e : Est n k) (he : estimate ⟨y, X, none⟩ = .ok e) (cols : ℕ) :
    ∃ r, r2 none cols e.observed e.residual = some r ∧ r.sse = ∑ i, (y i - ∑ j, X i j * e.β j) ^ 2 ∧ r.sst = ∑ i, (y i - mean y) ^ 2 ∧ r.ssr = ∑ i, (∑ j, X i j * e.β j - mean y) ^ 2 ∧
      r.rsq = 1 - r.sse / r.sst ∧ (0 < r.sst → 0 ≤ r.rsq ∧ r.rsq ≤ 1) := by
  obtain ⟨r, hr, h1, h2, h3, h4, _⟩ := r2_none hn cols e.observed e.residual
  obtain ⟨ho, hp, hd⟩ := C86_page y X e he
  have hres : ∀ i, e.residual i = (∑ j, X i j * e.β j) - y i := fun i => by rw [hd, Pi.sub_apply, hp, ho]
  have hsse : r.sse = ∑ i, (y i - ∑ j, X i j * e.β j) ^ 2 := by
    rw [h1]; exact Finset.sum_congr rfl fun i _ => by rw [hres]; ring
  rw [ho] at h2
  -- residuals are orthogonal to any combination of the columns
  have hno : ∀ b : Fin k → ℝ, ∑ i, (∑ j, X i j * b j) * (∑ j, X i j * e.β j - y i) = 0 := by
    intro b
    have hj := C86_normal ⟨y, X, none⟩ (fun i => by simp [In.weight]) e he
    simp only [In.weight, one_mul] at hj
    have : ∑ i, (∑ j, X i j * b j) * (∑ j, X i j * e.β j - y i) = ∑ j, b j * ∑ i, X i j * (∑ l, X i l * e.β l - y i) := by
      simp only [Finset.sum_mul, Finset.mul_sum]
      rw [Finset.sum_comm]
      refine Finset.sum_congr rfl fun j _ => Finset.sum_congr rfl fun i _ => by ring
    rw [this]
    exact Finset.sum_eq_zero fun j _ => by rw [hj j, mul_zero]
  have hssr : r.ssr = ∑ i, (∑ j, X i j * e.β j - mean y) ^ 2 := by
    rw [h4, h2, hsse, ← Finset.sum_sub_distrib]
    have hA := hno e.β
    have hB := hno c
    simp only [hc, one_mul] at hB
    have : ∑ i, ((y i - mean y) ^ 2 - (y i - ∑ j, X i j * e.β j) ^ 2) = ∑ i, ((∑ j, X i j * e.β j - mean y) ^ 2) + (2 * mean y * ∑ i, (∑ j, X i j * e.β j - y i) - 2 * ∑ i, (∑ j, X i j * e.β j) * (∑ j, X i j * e.β j - y i)) := by
      rw [Finset.mul_sum, Finset.mul_sum, ← Finset.sum_sub_distrib, ← Finset.sum_add_distrib]
      exact Finset.sum_congr rfl fun i _ => by ring
    rw [this, hA, hB]; ring
  refine ⟨r, hr, hsse, h2, hssr, h3, fun hpos => ?_⟩
  have hsse0 : 0 ≤ r.sse := by rw [hsse]; exact Finset.sum_nonneg fun i _ => sq_nonneg _
  have hssr0 : 0 ≤ r.ssr := by rw [hssr]; exact Finset.sum_nonneg fun i _ => sq_nonneg _
  rw [h3]
  constructor
  · rw [sub_nonneg, div_le_one hpos]; linarith
  · linarith [div_nonneg hsse0 hpos.le]

/-- **C87 (adjusted).** With p = cols - 1 independent variables and R² the plain one, the adjusted is 1 - (1 - R²)(n - 1)/(n - p). -/
theorem C87_adjusted (hn : 2 ≤ n) (p : ℕ) (o e : Fin n → ℝ) : ∃ r, r2 none (p + 1) o e = some r ∧ r.adj = 1 - (1 - r.rsq) * (((n : ℝ) - 1) / (n - p)) := by
  obtain ⟨r, hr, _, _, _, _, h⟩ := r2_none hn (p + 1) o e
  refine ⟨r, hr, ?_⟩
  rw [h]; push_cast; ring

/-- The usual adjusted R², 1 - (1 - R²)(n - 1)/(n - p - 1), is not what is given, unless the fit is perfect. -/
theorem C87_adjusted_refuted (hn : 2 ≤ n) (p : ℕ) (hp : p + 1 < n) (o e : Fin n → ℝ) : ∃ r, r2 none (p + 1) o e = some r ∧ (r.adj = 1 - (1 - r.rsq) * (((n : ℝ) - 1) / (n - p - 1)) ↔ r.rsq = 1) := by
  obtain ⟨r, hr, h⟩ := C87_adjusted hn p o e
  refine ⟨r, hr, ?_⟩
  have hn1 : (2 : ℝ) ≤ n := by exact_mod_cast hn
  have hp1 : (p : ℝ) + 1 < n := by exact_mod_cast hp
  rw [h]
  constructor
  · intro h0
    have h1 : (1 - r.rsq) * (((n : ℝ) - 1) / (n - p - 1) - ((n : ℝ) - 1) / (n - p)) = 0 := by linarith
    rcases mul_eq_zero.1 h1 with h2 | h2
    · linarith
    · exfalso
      have a : (n : ℝ) - p - 1 ≠ 0 := by linarith
      have b : (n : ℝ) - p ≠ 0 := by linarith
      rw [sub_eq_zero, div_eq_div_iff a b] at h2
      have : (n : ℝ) - 1 = 0 := by nlinarith
      linarith
  · intro h0; rw [h0]; ring

/-- **C87 (weighted) fails**: after weighted least squares the SSE is the sum of the squared weights times the squared errors, the page's residuals having the weights in already. -/
theorem C87_weighted_refuted (y w : Fin n → ℝ) (X : Matrix (Fin n) (Fin k) ℝ) (hw : ∀ i, 0 ≤ w i) (e : Est n k) (he : estimate ⟨y, X, some w⟩ = .ok e) :
    sse (some w) e.residual = ∑ i, w i ^ 2 * (y i - ∑ j, X i j * e.β j) ^ 2 := by
  obtain ⟨_, _, h⟩ := C86_weighted_page y w X e he
  simp only [sse, dotProduct]
  refine Finset.sum_congr rfl fun i _ => ?_
  rw [h i, show w i * ((∑ j, X i j * e.β j - y i) * √(w i)) * ((∑ j, X i j * e.β j - y i) * √(w i)) = w i * (√(w i) * √(w i)) * (∑ j, X i j * e.β j - y i) ^ 2 by ring, Real.mul_self_sqrt (hw i)]
  ring

/-! ## A case -/

/-- Three points, (0,1), (1,2), (2,6), on a constant and the abscissa. -/
def line : In 3 2 := ⟨![1, 2, 6], !![1, 0; 1, 1; 1, 2], none⟩

theorem line_full : FullRank line := by
  intro b hb
  have h0 := hb 0 (by simp [line, In.weight])
  have h1 := hb 1 (by simp [line, In.weight])
  simp [line, Fin.sum_univ_two] at h0 h1
  funext j
  fin_cases j
  · exact h0
  · simp only [Fin.mk_one, Pi.zero_apply]; linarith

/-- The hypotheses are met: the line is y = 1/2 + 5/2 x. -/
example : ∃ e, estimate line = .ok e ∧ e.β = ![1 / 2, 5 / 2] := by
  have hnn : Nonneg line := fun i => by simp [line, In.weight]
  obtain ⟨e, he⟩ := (C86_when line hnn).2 line_full
  refine ⟨e, he, ?_⟩
  have h0 := C86_normal line hnn e he 0
  have h1 := C86_normal line hnn e he 1
  simp [line, In.weight, Fin.sum_univ_three, Fin.sum_univ_two] at h0 h1
  funext j
  fin_cases j
  · simp; linarith
  · simp; linarith

/-- The same with weights 1, 4, 9, and a constant among the columns. -/
example : ∃ e, estimate { line with w := some ![1, 4, 9] } = .ok e := by
  refine (C86_when _ (fun i => by fin_cases i <;> simp [In.weight])).2 fun b hb => ?_
  have h0 := hb 0 (by simp [In.weight])
  have h1 := hb 1 (by simp [In.weight])
  simp [line, Fin.sum_univ_two] at h0 h1
  funext j
  fin_cases j
  · exact h0
  · simp only [Fin.mk_one, Pi.zero_apply]; linarith

example : ∀ i, ∑ j, line.X i j * (![1, 0] : Fin 2 → ℝ) j = 1 := by
  intro i; fin_cases i <;> simp [line, Fin.sum_univ_two]

end Apop.Ols
