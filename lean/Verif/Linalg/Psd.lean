import Verif.Base.C
import Mathlib.Analysis.Matrix.Order
import Mathlib.LinearAlgebra.Matrix.NonsingularInverse
import Mathlib.LinearAlgebra.Matrix.SchurComplement
import Mathlib.Tactic.Linarith
import Mathlib.Tactic.NormNum
import Mathlib.Tactic.FinCases
import Mathlib.Logic.Equiv.Fin.Basic

/-! # C162-C163: determinant, inverse and the positive (semi)definite test

apop_linear_algebra.m4.c:40-86, apop_stats.m4.c:826-858. Exact arithmetic; GSL's LU routines by their documented
meaning: `gsl_linalg_LU_det` is the determinant, `gsl_linalg_LU_invert` gives the inverse and fails on a singular
matrix. -/

namespace Apop.Linalg

open Apop Matrix

/-- A `gsl_matrix`: its two sizes and its elements. -/
structure GMat where
  size1 : ℕ
  size2 : ℕ
  el : ℕ → ℕ → ℝ

/-- The upper left `i` by `i` block: `gsl_matrix_submatrix(m, 0, 0, i, i)`, apop_stats.m4.c:851. -/
def GMat.lead (m : GMat) (i : ℕ) : Matrix (Fin i) (Fin i) ℝ := Matrix.of fun a b => m.el a b

/-- A double that may be NaN. -/
inductive Dbl where
  | val (x : ℝ)
  | nan

/-- The caller's `out` pointer: NULL, or a place holding an inverse (`inv`) or NULL. -/
structure DI where
  ret : Dbl
  /-- What `*out` is on return; meaningless when `out` was NULL. -/
  out : Option GMat

/-- A square matrix as a `gsl_matrix`. -/
def ofMatrix (n : ℕ) (M : Matrix (Fin n) (Fin n) ℝ) : GMat :=
  ⟨n, n, fun a b => if h : a < n ∧ b < n then M ⟨a, h.1⟩ ⟨b, h.2⟩ else 0⟩

/-- After the decomposition: the determinant if wanted, apop_linear_algebra.m4.c:55-56. -/
noncomputable def detPart (m : GMat) (calcDet : Bool) : Dbl := if calcDet then .val (m.lead m.size1).det else .nan

open Classical in
/-- `apop_det_and_inv`, apop_linear_algebra.m4.c:40-62. `outNull`: the pointer `out` itself is NULL; `prev`: what `*out` held on entry. The input is `const` and only copied. -/
noncomputable def detAndInv (m : GMat) (outNull : Bool) (prev : Option GMat) (calcDet calcInv : Bool) : Res DI :=
  if m.size1 ≠ m.size2 then
    if outNull then .ub else .ok ⟨.nan, none⟩
  else if calcInv then
    if outNull then .ub
    else if (m.lead m.size1).det = 0 then .ok ⟨.nan, none⟩
    else .ok ⟨detPart m calcDet, some (ofMatrix m.size1 (m.lead m.size1)⁻¹)⟩
  else .ok ⟨detPart m calcDet, prev⟩

/-- `apop_matrix_inverse`, apop_linear_algebra.m4.c:70-74. -/
noncomputable def inverse (m : GMat) : Res (Option GMat) := (detAndInv m false none false true).bind fun d => .ok d.out

/-- `apop_matrix_determinant`, apop_linear_algebra.m4.c:84-86. -/
noncomputable def determinant (m : GMat) : Res Dbl := (detAndInv m true none true false).bind fun d => .ok d.ret

/-- The comparison at apop_stats.m4.c:853; a NaN compares false. -/
def rejects (semi : Char) : Dbl → Prop
  | .val d => (semi = 'd' ∧ d < 0) ∨ d ≤ 0
  | .nan => False

open Classical in
/-- The loop of `apop_matrix_is_positive_semidefinite`, apop_stats.m4.c:850-855: `fuel` rounds from `i`. A block wider than the matrix is a GSL range error. -/
noncomputable def psdLoop (m : GMat) (semi : Char) : ℕ → ℕ → Res ℤ
  | 0, _ => .ok 1
  | fuel + 1, i =>
    if m.size2 < i then .ub
    else (determinant ⟨i, i, m.el⟩).bind fun d => if rejects semi d then .ok 0 else psdLoop m semi fuel (i + 1)

/-- `apop_matrix_is_positive_semidefinite`, apop_stats.m4.c:845-857. -/
noncomputable def isPsd (m : Option GMat) (semi : Char) : Res ℤ :=
  match m with
  | none => .ok 0
  | some m => psdLoop m semi m.size1 1

/-! ### C162: determinant and inverse -/

@[simp] theorem lead_of (n : ℕ) (M : Matrix (Fin n) (Fin n) ℝ) : (ofMatrix n M).lead n = M := by
  ext a b; simp [GMat.lead, ofMatrix]

/-- `m` is a square matrix with entries `M`. -/
def Is (m : GMat) (n : ℕ) (M : Matrix (Fin n) (Fin n) ℝ) : Prop := m.size1 = n ∧ m.size2 = n ∧ m.lead n = M

/-- For a square matrix the determinant function gives the determinant. -/
theorem C162_determinant (m : GMat) (n : ℕ) (M : Matrix (Fin n) (Fin n) ℝ) (h : Is m n M) :
    determinant m = .ok (.val M.det) := by
  obtain ⟨rfl, h2, rfl⟩ := h
  simp [determinant, detAndInv, h2, Res.bind, detPart]

/-- The inverse function gives the two-sided inverse of a nonsingular matrix, and NULL exactly for a matrix that has no inverse. -/
theorem C162_inverse (m : GMat) (n : ℕ) (M : Matrix (Fin n) (Fin n) ℝ) (h : Is m n M) :
    (∃ (r : GMat) (R : Matrix (Fin n) (Fin n) ℝ), inverse m = .ok (some r) ∧ Is r n R ∧ M * R = 1 ∧ R * M = 1) ∨
      (inverse m = .ok none ∧ ¬ ∃ R : Matrix (Fin n) (Fin n) ℝ, M * R = 1) := by
  obtain ⟨rfl, h2, rfl⟩ := h
  by_cases hd : (m.lead m.size1).det = 0
  · right
    refine ⟨by simp [inverse, detAndInv, h2, hd, Res.bind], ?_⟩
    rintro ⟨R, hR⟩
    have := congrArg Matrix.det hR
    rw [Matrix.det_mul, hd, zero_mul, Matrix.det_one] at this
    exact zero_ne_one this
  · left
    have hu : IsUnit (m.lead m.size1).det := isUnit_iff_ne_zero.2 hd
    exact ⟨ofMatrix m.size1 (m.lead m.size1)⁻¹, (m.lead m.size1)⁻¹, by simp [inverse, detAndInv, h2, hd, Res.bind],
      ⟨rfl, rfl, lead_of _ _⟩, Matrix.mul_nonsing_inv _ hu, Matrix.nonsing_inv_mul _ hu⟩

/-- Both at once: a nonsingular matrix gives both, a singular one gives NaN (not zero) and NULL, as documented. -/
theorem C162_both (m : GMat) (n : ℕ) (M : Matrix (Fin n) (Fin n) ℝ) (h : Is m n M) (prev : Option GMat) :
    (M.det ≠ 0 → ∃ r : GMat, detAndInv m false prev true true = .ok ⟨.val M.det, some r⟩ ∧ Is r n M⁻¹) ∧
      (M.det = 0 → detAndInv m false prev true true = .ok ⟨.nan, none⟩) := by
  obtain ⟨rfl, h2, rfl⟩ := h
  refine ⟨fun hd => ⟨ofMatrix m.size1 (m.lead m.size1)⁻¹, by simp [detAndInv, h2, hd, detPart], ⟨rfl, rfl, lead_of _ _⟩⟩,
    fun hd => by simp [detAndInv, h2, hd]⟩

/-- A matrix that is not square: the inverse is NULL, the combined call gives NaN and NULL, but asking for the determinant writes through a NULL pointer. -/
theorem C162_not_square (m : GMat) (h : m.size1 ≠ m.size2) :
    inverse m = .ok none ∧ (∀ (prev : Option GMat) (cd ci : Bool), detAndInv m false prev cd ci = .ok ⟨.nan, none⟩) ∧
      determinant m = .ub := by
  simp [inverse, determinant, detAndInv, h, Res.bind]

/-- The documentation's "Otherwise, just returns zero" (when no determinant is wanted) is false: it returns NaN. -/
theorem C162_zero_refuted (m : GMat) (h : m.size1 = m.size2) (prev : Option GMat) (ci : Bool) :
    ∃ d : DI, detAndInv m false prev false ci = .ok d ∧ d.ret = .nan := by
  cases ci
  · exact ⟨_, by simp [detAndInv, h]; rfl, rfl⟩
  · by_cases hd : (m.lead m.size1).det = 0
    · exact ⟨_, by simp [detAndInv, h]; rw [if_pos (h ▸ hd)], rfl⟩
    · exact ⟨_, by simp [detAndInv, h]; rw [if_neg (h ▸ hd)], by simp [detPart]⟩

/-- A case: two by two, with its inverse. -/
example : Is (ofMatrix 2 !![2, 1; 1, 1]) 2 !![2, 1; 1, 1] ∧ (!![2, 1; 1, 1] : Matrix (Fin 2) (Fin 2) ℝ).det ≠ 0 :=
  ⟨⟨rfl, rfl, lead_of _ _⟩, by rw [Matrix.det_fin_two_of]; norm_num⟩

/-! ### C163: the test -/

open Classical in
theorem psdLoop_eq (m : GMat) (semi : Char) : ∀ (fuel i : ℕ), i + fuel ≤ m.size2 + 1 →
    (psdLoop m semi fuel i = .ok 1 ∧ ∀ k, i ≤ k → k < i + fuel → 0 < (m.lead k).det) ∨
      (psdLoop m semi fuel i = .ok 0 ∧ ∃ k, i ≤ k ∧ k < i + fuel ∧ (m.lead k).det ≤ 0) := by
  intro fuel
  induction fuel with
  | zero => intro i _; exact .inl ⟨rfl, fun k h1 h2 => by omega⟩
  | succ f ih =>
    intro i hi
    have hd : determinant ⟨i, i, m.el⟩ = .ok (.val (m.lead i).det) := C162_determinant ⟨i, i, m.el⟩ i _ ⟨rfl, rfl, rfl⟩
    rw [psdLoop, if_neg (by omega), hd]
    change (if rejects semi (.val (m.lead i).det) then _ else _) = _ ∧ _ ∨ (if rejects semi (.val (m.lead i).det) then _ else _) = _ ∧ _
    by_cases hr : rejects semi (.val (m.lead i).det)
    · rw [if_pos hr]
      refine .inr ⟨rfl, i, le_rfl, by omega, ?_⟩
      rcases hr with h | h
      · exact h.2.le
      · exact h
    · rw [if_neg hr]
      have hp : 0 < (m.lead i).det := by
        by_contra hc
        exact hr (.inr (not_lt.1 hc))
      rcases ih (i + 1) (by omega) with ⟨h1, h2⟩ | ⟨h1, k, h2, h3, h4⟩
      · refine .inl ⟨h1, fun k hk1 hk2 => ?_⟩
        rcases Nat.eq_or_lt_of_le hk1 with rfl | h
        · exact hp
        · exact h2 k h (by omega)
      · exact .inr ⟨h1, k, by omega, by omega, h4⟩

theorem lead_symm {m : GMat} {n : ℕ} (h : (m.lead n).IsSymm) {k : ℕ} (hk : k ≤ n) : (m.lead k).IsSymm := by
  ext a b
  have := h.apply ⟨a, by omega⟩ ⟨b, by omega⟩
  simpa [GMat.lead] using this

theorem lead_blocks (m : GMat) (k : ℕ) (h : (m.lead (k + 1)).IsSymm) :
    (m.lead (k + 1)).submatrix finSumFinEquiv finSumFinEquiv =
      Matrix.fromBlocks (m.lead k) (Matrix.of fun (a : Fin k) (_ : Fin 1) => m.el a k)
        (Matrix.of fun (a : Fin k) (_ : Fin 1) => m.el a k)ᴴ (Matrix.of fun (_ _ : Fin 1) => m.el k k) := by
  ext a b
  rcases a with a | a <;> rcases b with b | b
  · simp [GMat.lead]
  · have : b = 0 := Subsingleton.elim _ _
    subst this
    simp [GMat.lead]
  · have : a = 0 := Subsingleton.elim _ _
    subst this
    have := h.apply ⟨b, by omega⟩ ⟨k, by omega⟩
    simpa [GMat.lead] using this
  · have ha : a = 0 := Subsingleton.elim _ _
    have hb : b = 0 := Subsingleton.elim _ _
    subst ha hb
    simp [GMat.lead]

/-- Sylvester's criterion, the hard direction. -/
theorem sylvester (m : GMat) : ∀ n, (m.lead n).IsSymm → (∀ k, 1 ≤ k → k ≤ n → 0 < (m.lead k).det) → (m.lead n).PosDef := by
  intro n
  induction n with
  | zero =>
    intro _ _
    refine PosDef.of_dotProduct_mulVec_pos (by ext a; exact a.elim0) fun x hx => ?_
    exact absurd (Subsingleton.elim x 0) hx
  | succ k ih =>
    intro hs hd
    have hA := ih (lead_symm hs (by omega)) fun j h1 h2 => hd j h1 (by omega)
    have : Invertible (m.lead k) := hA.isUnit.invertible
    have hdet : 0 < (m.lead (k + 1)).det := hd (k + 1) (by omega) le_rfl
    have hb := lead_blocks m k hs
    have hsub : ((m.lead (k + 1)).submatrix finSumFinEquiv finSumFinEquiv).det = (m.lead (k + 1)).det :=
      Matrix.det_submatrix_equiv_self _ _
    have hsch := Matrix.det_fromBlocks₁₁ (m.lead k) (Matrix.of fun (a : Fin k) (_ : Fin 1) => m.el a k)
      (Matrix.of fun (a : Fin k) (_ : Fin 1) => m.el a k)ᴴ (Matrix.of fun (_ _ : Fin 1) => m.el k k)
    rw [← hb, hsub] at hsch
    have hpos : 0 < ((Matrix.of fun (_ _ : Fin 1) => m.el k k) - (Matrix.of fun (a : Fin k) (_ : Fin 1) => m.el a k)ᴴ * (m.lead k)⁻¹ *
        (Matrix.of fun (a : Fin k) (_ : Fin 1) => m.el a k)).det := by
      rw [Matrix.invOf_eq_nonsing_inv] at hsch
      have := hA.det_pos
      rw [hsch] at hdet
      exact (mul_pos_iff_of_pos_left this).1 hdet
    have hps : (m.lead (k + 1)).PosSemidef := by
      rw [← Matrix.posSemidef_submatrix_equiv finSumFinEquiv, hb, Matrix.PosDef.fromBlocks₁₁ _ _ hA]
      have h1 : ∀ S : Matrix (Fin 1) (Fin 1) ℝ, 0 < S.det → S.PosSemidef := by
        intro S hS
        rw [Matrix.det_fin_one] at hS
        have : S = Matrix.diagonal fun _ => S 0 0 := by
          ext a b
          have ha : a = 0 := Subsingleton.elim _ _
          have hb : b = 0 := Subsingleton.elim _ _
          subst ha hb
          simp
        rw [this]
        exact PosSemidef.diagonal fun _ => hS.le
      exact h1 _ hpos
    exact hps.posDef_iff_det_ne_zero.2 hdet.ne'

theorem lead_posDef {m : GMat} {n : ℕ} (h : (m.lead n).PosDef) {k : ℕ} (hk : k ≤ n) : (m.lead k).PosDef :=
  h.submatrix (e := Fin.castLE hk) (Fin.castLE_injective hk)

/-- For a symmetric matrix the test, whichever kind is asked for, answers 1 exactly for the positive definite ones. -/
theorem C163_iff (m : GMat) (n : ℕ) (M : Matrix (Fin n) (Fin n) ℝ) (h : Is m n M) (hs : M.IsSymm) (semi : Char) :
    (M.PosDef ∧ isPsd (some m) semi = .ok 1) ∨ (¬ M.PosDef ∧ isPsd (some m) semi = .ok 0) := by
  obtain ⟨rfl, h2, rfl⟩ := h
  rcases psdLoop_eq m semi m.size1 1 (by omega) with ⟨h1, h3⟩ | ⟨h1, k, h3, h4, h5⟩
  · exact .inl ⟨sylvester m _ hs fun k a b => h3 k a (by omega), h1⟩
  · exact .inr ⟨fun hp => absurd (lead_posDef hp (k := k) (by omega)).det_pos (not_lt.2 h5), h1⟩

/-- NULL is not positive semidefinite. -/
theorem C163_null (semi : Char) : isPsd none semi = .ok 0 := rfl

/-- Whatever matrix the test passes (symmetric or not) has a positive determinant and a positive first element. -/
theorem C163_sound_any (m : GMat) (n : ℕ) (M : Matrix (Fin n) (Fin n) ℝ) (h : Is m n M) (semi : Char)
    (h1 : isPsd (some m) semi = .ok 1) (hn : 0 < n) : 0 < M.det ∧ 0 < M ⟨0, hn⟩ ⟨0, hn⟩ := by
  obtain ⟨rfl, h2, rfl⟩ := h
  rcases psdLoop_eq m semi m.size1 1 (by omega) with ⟨_, h3⟩ | ⟨h0, _⟩
  · refine ⟨h3 _ (by omega) (by omega), ?_⟩
    have := h3 1 le_rfl (by omega)
    simpa [GMat.lead] using this
  · have : isPsd (some m) semi = .ok 0 := h0
    rw [this] at h1
    simp at h1

/-- Singular positive semidefinite matrices fail, although the default is to test for semidefiniteness. -/
theorem C163_semidefinite_refuted (m : GMat) (n : ℕ) (M : Matrix (Fin n) (Fin n) ℝ) (h : Is m n M) (hp : M.PosSemidef) (hd : M.det = 0) :
    isPsd (some m) 's' = .ok 0 := by
  have hs : M.IsSymm := by
    have := hp.isHermitian
    rw [IsHermitian, conjTranspose_eq_transpose_of_trivial] at this
    exact this
  rcases C163_iff m n M h hs 's' with ⟨h1, _⟩ | ⟨_, h1⟩
  · exact absurd hd h1.det_pos.ne'
  · exact h1

/-- The hypotheses are met: the covariance matrix of two perfectly correlated variables. -/
example : Is (ofMatrix 2 !![1, 1; 1, 1]) 2 !![1, 1; 1, 1] ∧ (!![1, 1; 1, 1] : Matrix (Fin 2) (Fin 2) ℝ).PosSemidef ∧
    (!![1, 1; 1, 1] : Matrix (Fin 2) (Fin 2) ℝ).det = 0 := by
  refine ⟨⟨rfl, rfl, lead_of _ _⟩, ?_, by rw [Matrix.det_fin_two_of]; norm_num⟩
  have := Matrix.posSemidef_vecMulVec_self_star (fun _ : Fin 2 => (1 : ℝ))
  convert this using 1
  ext a b
  fin_cases a <;> fin_cases b <;> simp [Matrix.vecMulVec]

/-- Symmetry is not checked: this matrix passes though its quadratic form takes a negative value. -/
theorem C163_asymmetric_refuted (semi : Char) :
    isPsd (some (ofMatrix 2 !![1, 5; 0, 1])) semi = .ok 1 ∧
      (![1, -1] : Fin 2 → ℝ) ⬝ᵥ ((!![1, 5; 0, 1] : Matrix (Fin 2) (Fin 2) ℝ) *ᵥ ![1, -1]) < 0 := by
  constructor
  · rcases psdLoop_eq (ofMatrix 2 !![1, 5; 0, 1]) semi 2 1 (by simp [ofMatrix]) with ⟨h, _⟩ | ⟨_, k, h1, h2, h3⟩
    · exact h
    · exfalso
      have : k = 1 ∨ k = 2 := by omega
      rcases this with rfl | rfl
      · simp [GMat.lead, ofMatrix] at h3
        norm_num at h3
      · rw [lead_of, Matrix.det_fin_two_of] at h3
        norm_num at h3
  · simp [Matrix.mulVec, dotProduct, Fin.sum_univ_two]
    norm_num

/-- A matrix with more rows than columns, whose leading blocks are all positive, runs past its last column. -/
theorem C163_tall_refuted : isPsd (some ⟨2, 1, fun _ _ => 1⟩) 's' = .ub := by
  have hd : determinant ⟨1, 1, fun _ _ => 1⟩ = .ok (.val 1) := by
    rw [C162_determinant ⟨1, 1, fun _ _ => 1⟩ 1 !![1] ⟨rfl, rfl, by ext a b; simp [GMat.lead, Subsingleton.elim a 0, Subsingleton.elim b 0]⟩]
    simp
  simp [isPsd, psdLoop, hd, Res.bind, rejects]

/-- A case: a positive definite matrix passes. -/
example : isPsd (some (ofMatrix 2 !![2, 1; 1, 2])) 's' = .ok 1 := by
  rcases psdLoop_eq (ofMatrix 2 !![2, 1; 1, 2]) 's' 2 1 (by simp [ofMatrix]) with ⟨h, _⟩ | ⟨_, k, h1, h2, h3⟩
  · exact h
  · exfalso
    have : k = 1 ∨ k = 2 := by omega
    rcases this with rfl | rfl
    · simp [GMat.lead, ofMatrix] at h3
      norm_num at h3
    · rw [lead_of, Matrix.det_fin_two_of] at h3
      norm_num at h3

end Apop.Linalg
