import Mathlib.LinearAlgebra.Matrix.NonsingularInverse
import Mathlib.LinearAlgebra.Matrix.PosDef
import Mathlib.Analysis.Matrix.Order
import Mathlib.LinearAlgebra.Matrix.Notation
import Mathlib.LinearAlgebra.Matrix.Determinant.Basic
import Mathlib.Analysis.Real.Sqrt
import Mathlib.Algebra.Order.Star.Real
import Mathlib.Algebra.BigOperators.Fin
import Mathlib.Tactic.Linarith
import Mathlib.Tactic.FinCases
import Mathlib.Tactic.FieldSimp
import Mathlib.Tactic.Ring

/-! # C99: the F test of linear hypotheses -/

namespace Apop.FTest
open Matrix
variable {n k q : ℕ}

/-! ## The model (exact arithmetic; dimensions fit: `Q` has as many columns as there are parameters, as many rows as `c` has elements) -/

/-- `means`, apop_tests.m4.c:165-168. -/
noncomputable def means (X : Matrix (Fin n) (Fin (k + 1)) ℝ) (j : Fin (k + 1)) : ℝ := if j = 0 then 0 else (∑ c, X c j) / n

/-- The matrix `xpx`, apop_tests.m4.c:171-178. -/
noncomputable def xpx (X : Matrix (Fin n) (Fin (k + 1)) ℝ) : Matrix (Fin (k + 1)) (Fin (k + 1)) ℝ :=
  fun i j => ∑ c, (X c i - means X i) * (X c j - means X j)

/-- `apop_matrix_inverse`, none of a singular matrix. -/
noncomputable def inv {m : ℕ} (M : Matrix (Fin m) (Fin m) ℝ) : Option (Matrix (Fin m) (Fin m) ℝ) := by
  classical exact if M.det = 0 then none else some M⁻¹

/-- What is returned, if there is no error: the statistic, the degrees of freedom, the p value (`none`: NaN). -/
structure Out where
  f : ℝ
  df1 : ℤ
  df2 : ℤ
  p : Option ℝ

/-- The output, apop_tests.m4.c:196-208; `Fq` is `gsl_cdf_fdist_Q`, `sse` the sum of squared errors, which is not zero. -/
noncomputable def finish (Fq : ℝ → ℤ → ℤ → ℝ) (n q : ℕ) (form sse : ℝ) : Out :=
  let f := form * ((((n : ℤ) - q : ℤ) : ℝ) / (sse * q))
  ⟨f, q, (n : ℤ) - q, if 0 < q ∧ 0 < (n : ℤ) - q then some (Fq f q ((n : ℤ) - q)) else none⟩

/-- `apop_f_test_base`, apop_tests.m4.c:152-209; an error: the letter. -/
noncomputable def fTest (Fq : ℝ → ℤ → ℤ → ℝ) (X : Matrix (Fin n) (Fin (k + 1)) ℝ) (β : Fin (k + 1) → ℝ) (sse : ℝ) (Q : Matrix (Fin q) (Fin (k + 1)) ℝ) (c : Fin q → ℝ) : Except Char Out :=
  match inv (xpx X) with
  | none => .error 'i'
  | some A =>
    match inv (Q * A * Qᵀ) with
    | none => .error 'i'
    | some B => .ok (finish Fq n q ((Q *ᵥ β - c) ⬝ᵥ (B *ᵥ (Q *ᵥ β - c))) sse)

/-- The default matrix, apop_tests.m4.c:138-143: the identity with the top row missing. -/
def defaultQ (k : ℕ) : Matrix (Fin k) (Fin (k + 1)) ℝ := fun i j => if j = i.succ then 1 else 0

/-- What a pointer in the set of hypotheses points at. -/
inductive Part where
  | null
  | alive
  | freed
  deriving DecidableEq

/-- The set of hypotheses the user gave, with its matrix and vector, as `apop_f_test` leaves it, apop_tests.m4.c:136-150: `free_matrix` is never set. -/
def afterwards (mat vec : Part) : Part × Part :=
  (if mat = .null then .alive else mat, if vec = .null then .freed else vec)

/-! ## Specification -/

/-- The form in the documentation: (Qβ - c)' [Q (X'X)⁻¹ Q']⁻¹ (Qβ - c). -/
noncomputable def form (X : Matrix (Fin n) (Fin (k + 1)) ℝ) (β : Fin (k + 1) → ℝ) (Q : Matrix (Fin q) (Fin (k + 1)) ℝ) (c : Fin q → ℝ) : ℝ :=
  (Q *ᵥ β - c) ⬝ᵥ ((Q * (Xᵀ * X)⁻¹ * Qᵀ)⁻¹ *ᵥ (Q *ᵥ β - c))

/-- The F statistic in the documentation. -/
noncomputable def documented (X : Matrix (Fin n) (Fin (k + 1)) ℝ) (β : Fin (k + 1) → ℝ) (sse : ℝ) (Q : Matrix (Fin q) (Fin (k + 1)) ℝ) (c : Fin q → ℝ) : ℝ :=
  (((n : ℤ) - (k + 1 : ℕ) : ℤ) : ℝ) / q * (form X β Q c / sse)

/-! ## Proofs -/

/-- The change of variables that takes the means out. -/
noncomputable def T (μ : Fin (k + 1) → ℝ) : Matrix (Fin (k + 1)) (Fin (k + 1)) ℝ := 1 - vecMulVec (Pi.single 0 1) μ

noncomputable def T' (μ : Fin (k + 1) → ℝ) : Matrix (Fin (k + 1)) (Fin (k + 1)) ℝ := 1 + vecMulVec (Pi.single 0 1) μ

theorem TT' (μ : Fin (k + 1) → ℝ) (h : μ 0 = 0) : T μ * T' μ = 1 := by
  have hz : vecMulVec (Pi.single (0 : Fin (k + 1)) (1 : ℝ)) μ * vecMulVec (Pi.single (0 : Fin (k + 1)) (1 : ℝ)) μ = 0 := by
    rw [vecMulVec_mul_vecMulVec]
    simp [h]
  unfold T T'
  rw [sub_mul, mul_add, mul_add, hz]
  simp

theorem xpx_eq (X : Matrix (Fin n) (Fin (k + 1)) ℝ) (h1 : ∀ c, X c 0 = 1) : xpx X = (X * T (means X))ᵀ * (X * T (means X)) := by
  have hX : ∀ c j, (X * T (means X)) c j = X c j - means X j := by
    intro c j
    unfold T
    rw [Matrix.mul_sub, Matrix.mul_one, Matrix.sub_apply, Matrix.mul_vecMulVec, vecMulVec_apply]
    simp [h1]
  funext i j
  rw [Matrix.mul_apply]
  unfold xpx
  apply Finset.sum_congr rfl
  intro c _
  rw [Matrix.transpose_apply, hX, hX]

theorem det_T (μ : Fin (k + 1) → ℝ) (h : μ 0 = 0) : (T μ).det * (T' μ).det = 1 := by
  rw [← Matrix.det_mul, TT' μ h, Matrix.det_one]

theorem means_zero (X : Matrix (Fin n) (Fin (k + 1)) ℝ) : means X 0 = 0 := if_pos rfl

theorem det_xpx (X : Matrix (Fin n) (Fin (k + 1)) ℝ) (h1 : ∀ c, X c 0 = 1) : (xpx X).det = 0 ↔ (Xᵀ * X).det = 0 := by
  rw [xpx_eq X h1, Matrix.transpose_mul, Matrix.mul_assoc, ← Matrix.mul_assoc Xᵀ, Matrix.det_mul, Matrix.det_mul, Matrix.det_transpose]
  have := det_T (means X) (means_zero X)
  have hne : (T (means X)).det ≠ 0 := by intro h; rw [h, zero_mul] at this; exact zero_ne_one this
  simp [hne]

theorem inv_xpx (X : Matrix (Fin n) (Fin (k + 1)) ℝ) (h1 : ∀ c, X c 0 = 1) (hd : (Xᵀ * X).det ≠ 0) :
    (xpx X)⁻¹ = T' (means X) * (Xᵀ * X)⁻¹ * (T' (means X))ᵀ := by
  apply Matrix.inv_eq_left_inv
  rw [xpx_eq X h1, Matrix.transpose_mul]
  have hu : IsUnit (Xᵀ * X).det := isUnit_iff_ne_zero.2 hd
  have t1 := TT' (means X) (means_zero X)
  have t2 : T' (means X) * T (means X) = 1 := mul_eq_one_comm.1 t1
  have t3 : (T' (means X))ᵀ * (T (means X))ᵀ = 1 := by rw [← Matrix.transpose_mul, t1, Matrix.transpose_one]
  calc T' (means X) * (Xᵀ * X)⁻¹ * (T' (means X))ᵀ * ((T (means X))ᵀ * Xᵀ * (X * T (means X)))
      = T' (means X) * ((Xᵀ * X)⁻¹ * (((T' (means X))ᵀ * (T (means X))ᵀ) * (Xᵀ * X))) * T (means X) := by simp only [Matrix.mul_assoc]
    _ = 1 := by rw [t3, Matrix.one_mul, Matrix.nonsing_inv_mul _ hu, Matrix.mul_one, t2]

theorem Q_T' (μ : Fin (k + 1) → ℝ) (Q : Matrix (Fin q) (Fin (k + 1)) ℝ) (hQ : ∀ i, Q i 0 = 0) : Q * T' μ = Q := by
  unfold T'
  rw [Matrix.mul_add, Matrix.mul_one, Matrix.mul_vecMulVec]
  have : Q *ᵥ Pi.single 0 1 = 0 := by
    funext i
    simp [hQ]
  rw [this]
  simp

theorem middle (X : Matrix (Fin n) (Fin (k + 1)) ℝ) (h1 : ∀ c, X c 0 = 1) (hd : (Xᵀ * X).det ≠ 0) (Q : Matrix (Fin q) (Fin (k + 1)) ℝ) (hQ : ∀ i, Q i 0 = 0) :
    Q * (xpx X)⁻¹ * Qᵀ = Q * (Xᵀ * X)⁻¹ * Qᵀ := by
  rw [inv_xpx X h1 hd]
  have := Q_T' (means X) Q hQ
  have ht : (T' (means X))ᵀ * Qᵀ = Qᵀ := by rw [← Matrix.transpose_mul, this]
  calc Q * (T' (means X) * (Xᵀ * X)⁻¹ * (T' (means X))ᵀ) * Qᵀ = (Q * T' (means X)) * (Xᵀ * X)⁻¹ * ((T' (means X))ᵀ * Qᵀ) := by simp only [Matrix.mul_assoc]
    _ = _ := by rw [this, ht]

/-- **C99 (the form).** For any data with a column of ones as first column and independent columns, any parameters and any hypotheses that do not touch the constant term and are not redundant: the statistic is the documented form, made with X'X as it is although the code takes the means out first, over the sum of squared errors, times the ratio of the degrees of freedom given: the number of rows less the number of *hypotheses*, and the number of hypotheses. -/
theorem C99_statistic (Fq : ℝ → ℤ → ℤ → ℝ) (X : Matrix (Fin n) (Fin (k + 1)) ℝ) (h1 : ∀ c, X c 0 = 1) (hd : (Xᵀ * X).det ≠ 0) (β : Fin (k + 1) → ℝ) (sse : ℝ)
    (Q : Matrix (Fin q) (Fin (k + 1)) ℝ) (hQ : ∀ i, Q i 0 = 0) (hdQ : (Q * (Xᵀ * X)⁻¹ * Qᵀ).det ≠ 0) (c : Fin q → ℝ) :
    ∃ o, fTest Fq X β sse Q c = .ok o ∧ o.f = (((n : ℤ) - q : ℤ) : ℝ) / q * (form X β Q c / sse) ∧ o.df1 = q ∧ o.df2 = n - q ∧
      o.p = if 0 < q ∧ q < n then some (Fq o.f o.df1 o.df2) else none := by
  unfold fTest
  have e1 : inv (xpx X) = some (xpx X)⁻¹ := if_neg (fun h => hd ((det_xpx X h1).1 h))
  rw [e1]
  simp only
  rw [middle X h1 hd Q hQ]
  have e2 : inv (Q * (Xᵀ * X)⁻¹ * Qᵀ) = some (Q * (Xᵀ * X)⁻¹ * Qᵀ)⁻¹ := if_neg hdQ
  rw [e2]
  refine ⟨_, rfl, ?_, rfl, rfl, ?_⟩
  · show form X β Q c * _ = _
    rw [div_mul_div_comm, mul_comm (q : ℝ) sse, mul_comm _ (form X β Q c), mul_div_assoc]
  · show (if _ then _ else _) = _
    exact if_congr (by omega) rfl rfl

/-- **C99 (degrees of freedom) fails**: documented is the number of rows less the number of *parameters*. With the default hypotheses, all parameters but the constant term zero, of which there is one fewer than parameters, the second degrees of freedom are one too many, and the statistic is too big by that ratio. -/
theorem C99_df_refuted (Fq : ℝ → ℤ → ℤ → ℝ) (X : Matrix (Fin n) (Fin (k + 1)) ℝ) (h1 : ∀ c, X c 0 = 1) (hd : (Xᵀ * X).det ≠ 0) (β : Fin (k + 1) → ℝ) (sse : ℝ) (c : Fin k → ℝ)
    (hdQ : (defaultQ k * (Xᵀ * X)⁻¹ * (defaultQ k)ᵀ).det ≠ 0) (hn : k + 1 < n) :
    ∃ o, fTest Fq X β sse (defaultQ k) c = .ok o ∧ o.df2 = (n - (k + 1 : ℕ)) + 1 ∧ o.f = documented X β sse (defaultQ k) c * (((n : ℝ) - k) / (n - (k + 1))) := by
  obtain ⟨o, h, hf, _, h2, _⟩ := C99_statistic Fq X h1 hd β sse (defaultQ k) (by intro i; exact if_neg (fun e => absurd e (Fin.succ_ne_zero i).symm)) hdQ c
  refine ⟨o, h, by rw [h2]; push_cast; ring, ?_⟩
  rw [hf]
  unfold documented
  have : (n : ℝ) - (k + 1) ≠ 0 := by
    have : ((k + 1 : ℕ) : ℝ) < n := by exact_mod_cast hn
    push_cast at this
    linarith
  push_cast
  field_simp

/-- **C99 (inversion errors).** For hypotheses that do not touch the constant term, there is an error just if X'X is singular or the hypotheses are redundant, Q(X'X)⁻¹Q' being singular; the error is `i`. -/
theorem C99_error (Fq : ℝ → ℤ → ℤ → ℝ) (X : Matrix (Fin n) (Fin (k + 1)) ℝ) (h1 : ∀ c, X c 0 = 1) (β : Fin (k + 1) → ℝ) (sse : ℝ)
    (Q : Matrix (Fin q) (Fin (k + 1)) ℝ) (hQ : ∀ i, Q i 0 = 0) (c : Fin q → ℝ) :
    fTest Fq X β sse Q c = .error 'i' ↔ (Xᵀ * X).det = 0 ∨ (Q * (Xᵀ * X)⁻¹ * Qᵀ).det = 0 := by
  by_cases hd : (Xᵀ * X).det = 0
  · have e1 : inv (xpx X) = none := if_pos ((det_xpx X h1).2 hd)
    unfold fTest
    rw [e1]
    simp [hd]
  · by_cases hdQ : (Q * (Xᵀ * X)⁻¹ * Qᵀ).det = 0
    · have e1 : inv (xpx X) = some (xpx X)⁻¹ := if_neg (fun h => hd ((det_xpx X h1).1 h))
      unfold fTest
      rw [e1]
      simp only
      rw [middle X h1 hd Q hQ]
      have e2 : inv (Q * (Xᵀ * X)⁻¹ * Qᵀ) = none := if_pos hdQ
      rw [e2]
      simp [hdQ]
    · obtain ⟨o, h, _⟩ := C99_statistic Fq X h1 hd β sse Q hQ hdQ c
      rw [h]
      simp [hd, hdQ]

theorem form_pos (X : Matrix (Fin n) (Fin (k + 1)) ℝ) (hd : (Xᵀ * X).det ≠ 0) (Q : Matrix (Fin q) (Fin (k + 1)) ℝ) (hdQ : (Q * (Xᵀ * X)⁻¹ * Qᵀ).det ≠ 0) :
    (Q * (Xᵀ * X)⁻¹ * Qᵀ)⁻¹.PosDef := by
  have p1 : (Xᵀ * X).PosSemidef := by
    have := Matrix.posSemidef_conjTranspose_mul_self X
    rwa [Matrix.conjTranspose_eq_transpose_of_trivial] at this
  have p2 := p1.inv.mul_mul_conjTranspose_same Q
  rw [Matrix.conjTranspose_eq_transpose_of_trivial] at p2
  have p3 : (Q * (Xᵀ * X)⁻¹ * Qᵀ).PosDef := p2.posDef_iff_isUnit.2 ((Matrix.isUnit_iff_isUnit_det _).2 (isUnit_iff_ne_zero.2 hdQ))
  exact p3.inv

/-- **C99 (sign).** The statistic is never negative, if there are more rows than hypotheses, and it is zero just if the parameters meet the hypotheses exactly. -/
theorem C99_zero_iff (Fq : ℝ → ℤ → ℤ → ℝ) (X : Matrix (Fin n) (Fin (k + 1)) ℝ) (h1 : ∀ c, X c 0 = 1) (hd : (Xᵀ * X).det ≠ 0) (β : Fin (k + 1) → ℝ) (sse : ℝ) (hs : 0 < sse)
    (Q : Matrix (Fin q) (Fin (k + 1)) ℝ) (hQ : ∀ i, Q i 0 = 0) (hdQ : (Q * (Xᵀ * X)⁻¹ * Qᵀ).det ≠ 0) (c : Fin q → ℝ) (hq : 0 < q) (hqn : q < n) :
    ∃ o, fTest Fq X β sse Q c = .ok o ∧ 0 ≤ o.f ∧ (o.f = 0 ↔ Q *ᵥ β = c) := by
  obtain ⟨o, h, hf, _⟩ := C99_statistic Fq X h1 hd β sse Q hQ hdQ c
  refine ⟨o, h, ?_⟩
  have hp := form_pos X hd Q hdQ
  have hnq : (0 : ℝ) < ((n : ℤ) - q : ℤ) := by
    have : (0 : ℤ) < (n : ℤ) - q := by omega
    exact_mod_cast this
  have hq' : (0 : ℝ) < q := by exact_mod_cast hq
  have hfn : 0 ≤ form X β Q c := by
    have := hp.posSemidef.dotProduct_mulVec_nonneg (Q *ᵥ β - c)
    rwa [star_trivial] at this
  rw [hf]
  refine ⟨by positivity, ?_⟩
  constructor
  · intro h0
    have : form X β Q c = 0 := by
      have h3 : (((n : ℤ) - q : ℤ) : ℝ) / q ≠ 0 := (div_pos hnq hq').ne'
      rcases mul_eq_zero.1 h0 with h0 | h0
      · exact absurd h0 h3
      · rcases div_eq_zero_iff.1 h0 with h0 | h0
        · exact h0
        · exact absurd h0 hs.ne'
    by_contra hne
    have h4 : Q *ᵥ β - c ≠ 0 := sub_ne_zero.2 hne
    have := hp.dotProduct_mulVec_pos h4
    have e : star (Q *ᵥ β - c) ⬝ᵥ ((Q * (Xᵀ * X)⁻¹ * Qᵀ)⁻¹ *ᵥ (Q *ᵥ β - c)) = form X β Q c := by simp [form]
    rw [e] at this
    linarith
  · intro he
    have : form X β Q c = 0 := by simp [form, he]
    rw [this]
    simp

/-- A line through three points, for an example: ones, and 1, 2, 3. -/
def exX : Matrix (Fin 3) (Fin 2) ℝ := !![1, 1; 1, 2; 1, 3]

/-- **C99 (the constant term) fails**: for the hypothesis that the constant term is zero, with the regressor 1, 2, 3, the code divides by 1/3, its variance if the regressor's mean were zero, and not by 7/3: the form is 3β² and should be 3β²/7. -/
theorem C99_constant_refuted (Fq : ℝ → ℤ → ℤ → ℝ) (β : Fin 2 → ℝ) (sse : ℝ) :
    ∃ o, fTest Fq exX β sse !![1, 0] ![0] = .ok o ∧ o.f = 2 / 1 * (3 * β 0 ^ 2 / sse) ∧ form exX β !![1, 0] ![0] = 3 * β 0 ^ 2 / 7 := by
  have hx : xpx exX = !![3, 0; 0, 2] := by
    funext i j
    fin_cases i <;> fin_cases j <;> simp [xpx, means, exX, Fin.sum_univ_three] <;> norm_num
  have hxx : exXᵀ * exX = !![3, 6; 6, 14] := by
    funext i j
    fin_cases i <;> fin_cases j <;> simp [exX, Matrix.mul_apply, Fin.sum_univ_three] <;> norm_num
  have i1 : (!![3, 0; 0, 2] : Matrix (Fin 2) (Fin 2) ℝ)⁻¹ = !![1 / 3, 0; 0, 1 / 2] := by
    apply Matrix.inv_eq_left_inv
    funext i j
    fin_cases i <;> fin_cases j <;> simp [Matrix.mul_apply, Fin.sum_univ_two]
  have i2 : (!![3, 6; 6, 14] : Matrix (Fin 2) (Fin 2) ℝ)⁻¹ = !![7 / 3, -1; -1, 1 / 2] := by
    apply Matrix.inv_eq_left_inv
    funext i j
    fin_cases i <;> fin_cases j <;> simp [Matrix.mul_apply, Fin.sum_univ_two] <;> norm_num
  have m1 : (!![1, 0] : Matrix (Fin 1) (Fin 2) ℝ) * (!![1 / 3, 0; 0, 1 / 2] : Matrix (Fin 2) (Fin 2) ℝ) * (!![1, 0] : Matrix (Fin 1) (Fin 2) ℝ)ᵀ = !![1 / 3] := by
    funext i j
    fin_cases i; fin_cases j; simp [Matrix.mul_apply, Fin.sum_univ_two]
  have m2 : (!![1, 0] : Matrix (Fin 1) (Fin 2) ℝ) * (!![7 / 3, -1; -1, 1 / 2] : Matrix (Fin 2) (Fin 2) ℝ) * (!![1, 0] : Matrix (Fin 1) (Fin 2) ℝ)ᵀ = !![7 / 3] := by
    funext i j
    fin_cases i; fin_cases j; simp [Matrix.mul_apply, Fin.sum_univ_two]
  have i3 : (!![1 / 3] : Matrix (Fin 1) (Fin 1) ℝ)⁻¹ = !![3] := by
    apply Matrix.inv_eq_left_inv
    funext i j
    fin_cases i; fin_cases j; simp [Matrix.mul_apply]
  have i4 : (!![7 / 3] : Matrix (Fin 1) (Fin 1) ℝ)⁻¹ = !![3 / 7] := by
    apply Matrix.inv_eq_left_inv
    funext i j
    fin_cases i; fin_cases j; simp [Matrix.mul_apply]
  have e1 : inv (xpx exX) = some !![1 / 3, 0; 0, 1 / 2] := by
    unfold inv
    rw [hx, i1, if_neg (by simp [Matrix.det_fin_two])]
  have e2 : inv (!![1 / 3] : Matrix (Fin 1) (Fin 1) ℝ) = some !![3] := by
    unfold inv
    rw [i3, if_neg (by simp)]
  unfold fTest
  rw [e1]
  simp only
  rw [m1, e2]
  refine ⟨_, rfl, ?_, ?_⟩
  · simp [finish, Matrix.mulVec, dotProduct, Fin.sum_univ_two]
    field_simp
  · unfold form
    rw [hxx, i2, m2, i4]
    simp [Matrix.mulVec, dotProduct, Fin.sum_univ_two]
    ring

/-- **C99 (the user's hypotheses) fails**: a set of hypotheses with a matrix only comes back with a pointer to a vector that has been freed, and one with a vector only with a matrix put into it. Only a set with both is left as it was. -/
theorem C99_contrast_refuted : afterwards .alive .null = (.alive, .freed) ∧ afterwards .null .alive = (.alive, .alive) ∧ ∀ m v, m ≠ .null → v ≠ .null → afterwards m v = (m, v) := by
  refine ⟨rfl, rfl, ?_⟩
  intro m v hm hv
  simp [afterwards, hm, hv]

/-- Nonvacuity: the line above, and the hypothesis that its slope is zero, which is the default. -/
example : (∀ c, exX c 0 = 1) ∧ (exXᵀ * exX).det ≠ 0 ∧ defaultQ 1 = !![0, 1] ∧ ((!![0, 1] : Matrix (Fin 1) (Fin 2) ℝ) * (exXᵀ * exX)⁻¹ * (!![0, 1] : Matrix (Fin 1) (Fin 2) ℝ)ᵀ).det ≠ 0 := by
  have hxx : exXᵀ * exX = !![3, 6; 6, 14] := by
    funext i j
    fin_cases i <;> fin_cases j <;> simp [exX, Matrix.mul_apply, Fin.sum_univ_three] <;> norm_num
  have i2 : (!![3, 6; 6, 14] : Matrix (Fin 2) (Fin 2) ℝ)⁻¹ = !![7 / 3, -1; -1, 1 / 2] := by
    apply Matrix.inv_eq_left_inv
    funext i j
    fin_cases i <;> fin_cases j <;> simp [Matrix.mul_apply, Fin.sum_univ_two] <;> norm_num
  refine ⟨?_, ?_, ?_, ?_⟩
  · intro c; fin_cases c <;> rfl
  · rw [hxx]; simp [Matrix.det_fin_two]; norm_num
  · funext i j
    fin_cases i; fin_cases j <;> simp [defaultQ]
  · have m : (!![0, 1] : Matrix (Fin 1) (Fin 2) ℝ) * (!![7 / 3, -1; -1, 1 / 2] : Matrix (Fin 2) (Fin 2) ℝ) * (!![0, 1] : Matrix (Fin 1) (Fin 2) ℝ)ᵀ = !![1 / 2] := by
      funext i j
      fin_cases i; fin_cases j; simp [Matrix.mul_apply, Fin.sum_univ_two]
    rw [hxx, i2, m]
    simp

end Apop.FTest
