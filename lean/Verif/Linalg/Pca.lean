import Verif.Linalg.Psd
import Mathlib.Algebra.BigOperators.Fin
import Mathlib.Algebra.Order.BigOperators.Ring.Finset
import Mathlib.Tactic.Ring
import Mathlib.Tactic.Positivity

/-! # C165: apop_matrix_pca (apop_linear_algebra.m4.c:112-147)

Exact arithmetic, `n + 1` rows, `c` columns. `gsl_linalg_SV_decomp` by its documented meaning: any orthogonal `U`, `V` and any nonnegative, nonincreasing
singular values with `A = U diag(s) V'`. -/

namespace Apop.Linalg

open Apop Matrix

variable {n c : ℕ}

/-- A data matrix. -/
abbrev Dat (n c : ℕ) := Matrix (Fin (n + 1)) (Fin c) ℝ

/-- Every column less its mean (`apop_vector_normalize(.., 'm')`), apop_linear_algebra.m4.c:128-129. -/
noncomputable def demean (X : Dat n c) : Dat n c := Matrix.of fun i j => X i j - (∑ r, X r j) / (n + 1 : ℕ)

/-- `gsl_linalg_SV_decomp`, apop_linear_algebra.m4.c:132. -/
def Svd (A V : Matrix (Fin c) (Fin c) ℝ) (s : Fin c → ℝ) : Prop :=
  (∀ i, 0 ≤ s i) ∧ (∀ i j, i ≤ j → s j ≤ s i) ∧ Vᵀ * V = 1 ∧ V * Vᵀ = 1 ∧
    ∃ U : Matrix (Fin c) (Fin c) ℝ, Uᵀ * U = 1 ∧ A = U * diagonal s * Vᵀ

/-- What comes back: the data as left, the components (columns), and the weights. -/
structure PcaOut (n c : ℕ) where
  data : Dat n c
  comps : List (Fin c → ℝ)
  weights : List Dbl

/-- A weight, apop_linear_algebra.m4.c:138; a zero total makes NaN. -/
noncomputable def weight (s : Fin c → ℝ) (i : Fin c) : Dbl := if (∑ k, s k) = 0 then .nan else .val (s i / ∑ k, s k)

/-- The number of dimensions: zero means not given, apop_linear_algebra.m4.c:115. -/
def dims (want : ℕ) (c : ℕ) : ℕ := if want = 0 then c else want

/-- The loop at apop_linear_algebra.m4.c:135-139, from column `i`; reading a column that the matrix lacks is an error. -/
noncomputable def takeCols (V : Matrix (Fin c) (Fin c) ℝ) (s : Fin c → ℝ) : ℕ → ℕ → Res (List (Fin c → ℝ) × List Dbl)
  | 0, _ => .ok ([], [])
  | k + 1, i => if h : i < c then (takeCols V s k (i + 1)).bind fun r => .ok (V.col ⟨i, h⟩ :: r.1, weight s ⟨i, h⟩ :: r.2) else .ub

/-- `apop_matrix_pca`, apop_linear_algebra.m4.c:112-147. -/
def Pca (X : Dat n c) (want : ℕ) (o : Res (PcaOut n c)) : Prop :=
  ∃ V s, Svd ((demean X)ᵀ * demean X) V s ∧ o = (takeCols V s (dims want c) 0).bind fun r => .ok ⟨demean X, r.1, r.2⟩

/-! ### Specification -/

/-- The variation of the data along a direction: the sum of the squares of the rows' coordinates. -/
noncomputable def along (X : Dat n c) (w : Fin c → ℝ) : ℝ := ∑ r, (X r ⬝ᵥ w) ^ 2

/-- All the variation there is. -/
noncomputable def total (X : Dat n c) : ℝ := ∑ r, ∑ j, X r j ^ 2

/-! ### Proofs -/

theorem along_eq (X : Dat n c) (w : Fin c → ℝ) : along X w = w ⬝ᵥ ((Xᵀ * X) *ᵥ w) := by
  rw [← Matrix.mulVec_mulVec, Matrix.dotProduct_mulVec, Matrix.vecMul_transpose]
  unfold along
  apply Finset.sum_congr rfl
  intro r _
  rw [sq]; rfl

theorem gram_symm (X : Dat n c) : (Xᵀ * X)ᵀ = Xᵀ * X := by simp

theorem svd_sq {A V : Matrix (Fin c) (Fin c) ℝ} {s : Fin c → ℝ} (hA : Aᵀ = A) (h : Svd A V s) :
    A * A * V = V * diagonal (fun i => s i * s i) := by
  obtain ⟨_, _, hV, _, U, hU, rfl⟩ := h
  have e : (U * diagonal s * Vᵀ)ᵀ * (U * diagonal s * Vᵀ) = V * diagonal (fun i => s i * s i) * Vᵀ := by
    rw [Matrix.transpose_mul, Matrix.transpose_mul, Matrix.transpose_transpose, diagonal_transpose, ← diagonal_mul_diagonal]
    calc _ = V * diagonal s * (Uᵀ * U) * diagonal s * Vᵀ := by simp only [Matrix.mul_assoc]
      _ = _ := by rw [hU, Matrix.mul_one]; simp only [Matrix.mul_assoc]
  rw [hA] at e
  rw [e, Matrix.mul_assoc, hV, Matrix.mul_one]

/-- The right singular vectors of a positive semidefinite matrix are its eigenvectors. -/
theorem svd_eigen {A V : Matrix (Fin c) (Fin c) ℝ} {s : Fin c → ℝ} (hA : A.PosSemidef) (h : Svd A V s) (i : Fin c) :
    A *ᵥ V.col i = s i • V.col i := by
  have hAt : Aᵀ = A := by
    have := hA.isHermitian
    rwa [IsHermitian, conjTranspose_eq_transpose_of_trivial] at this
  have h2 : A *ᵥ (A *ᵥ V.col i) = (s i * s i) • V.col i := by
    have := congrArg (fun M : Matrix (Fin c) (Fin c) ℝ => M.col i) (svd_sq hAt h)
    rw [Matrix.mulVec_mulVec]
    ext j
    have hj := congrFun this j
    simp only [Matrix.col_apply, Matrix.mul_diagonal] at hj
    simp only [Pi.smul_apply, smul_eq_mul, Matrix.col_apply]
    rw [mul_comm, ← hj]
    rfl
  rcases (h.1 i).eq_or_lt with h0 | hp
  · rw [← h0] at h2 ⊢
    rw [zero_smul]
    have h3 : (A *ᵥ V.col i) ⬝ᵥ (A *ᵥ V.col i) = 0 := by
      have : (A *ᵥ V.col i) ⬝ᵥ (A *ᵥ V.col i) = V.col i ⬝ᵥ (A *ᵥ (A *ᵥ V.col i)) := by
        rw [Matrix.dotProduct_mulVec (V.col i), ← Matrix.mulVec_transpose, hAt]
      rw [this, h2]
      simp
    exact dotProduct_self_eq_zero.1 h3
  · have hplus : (A + s i • (1 : Matrix (Fin c) (Fin c) ℝ)).PosDef := PosDef.posSemidef_add hA (PosDef.smul PosDef.one hp)
    have h0 : (A + s i • (1 : Matrix (Fin c) (Fin c) ℝ)) *ᵥ (A *ᵥ V.col i - s i • V.col i) = 0 := by
      rw [Matrix.mulVec_sub, Matrix.add_mulVec, Matrix.add_mulVec, h2]
      simp only [Matrix.smul_mulVec, Matrix.one_mulVec, Matrix.mulVec_smul, smul_smul]
      abel
    have hinj := Matrix.mulVec_injective_of_isUnit hplus.isUnit
    have := hinj (a₁ := A *ᵥ V.col i - s i • V.col i) (a₂ := 0) (by rw [h0, Matrix.mulVec_zero])
    exact sub_eq_zero.1 this

theorem gram_psd (X : Dat n c) : (Xᵀ * X).PosSemidef := by
  have := posSemidef_conjTranspose_mul_self X
  rwa [conjTranspose_eq_transpose_of_trivial] at this

theorem svd_ortho {A V : Matrix (Fin c) (Fin c) ℝ} {s : Fin c → ℝ} (h : Svd A V s) (i j : Fin c) :
    V.col i ⬝ᵥ V.col j = if i = j then 1 else 0 := by
  have := congrFun (congrFun h.2.2.1 i) j
  rw [Matrix.mul_apply, Matrix.one_apply] at this
  exact this

/-- A vector's expansion along the components. -/
theorem expand {A V : Matrix (Fin c) (Fin c) ℝ} {s : Fin c → ℝ} (h : Svd A V s) (w : Fin c → ℝ) :
    w = ∑ k, (V.col k ⬝ᵥ w) • V.col k := by
  have : V *ᵥ (Vᵀ *ᵥ w) = w := by rw [Matrix.mulVec_mulVec, h.2.2.2.1, Matrix.one_mulVec]
  conv_lhs => rw [← this]
  ext j
  simp only [Matrix.mulVec, dotProduct, Finset.sum_apply, Pi.smul_apply, smul_eq_mul, Matrix.transpose_apply, Matrix.col_apply]
  exact Finset.sum_congr rfl fun k _ => mul_comm _ _

theorem norm_expand {A V : Matrix (Fin c) (Fin c) ℝ} {s : Fin c → ℝ} (h : Svd A V s) (w : Fin c → ℝ) :
    w ⬝ᵥ w = ∑ k, (V.col k ⬝ᵥ w) ^ 2 := by
  conv_lhs => rw [expand h w]
  rw [sum_dotProduct]
  apply Finset.sum_congr rfl
  intro k _
  rw [smul_dotProduct, ← expand h w, sq]
  rfl

theorem along_expand (X : Dat n c) {V : Matrix (Fin c) (Fin c) ℝ} {s : Fin c → ℝ} (h : Svd (Xᵀ * X) V s) (w : Fin c → ℝ) :
    along X w = ∑ k, s k * (V.col k ⬝ᵥ w) ^ 2 := by
  rw [along_eq]
  conv_lhs => rw [expand h w]
  rw [sum_dotProduct]
  apply Finset.sum_congr rfl
  intro k _
  rw [smul_dotProduct, ← expand h w, Matrix.dotProduct_mulVec, ← Matrix.mulVec_transpose, gram_symm, svd_eigen (gram_psd X) h k, smul_dotProduct]
  simp only [smul_eq_mul]
  ring

theorem total_eq (X : Dat n c) {V : Matrix (Fin c) (Fin c) ℝ} {s : Fin c → ℝ} (h : Svd (Xᵀ * X) V s) : ∑ k, s k = total X := by
  have h1 : ∀ j : Fin c, ∑ r, X r j ^ 2 = along X (Pi.single j 1) := by
    intro j
    unfold along
    apply Finset.sum_congr rfl
    intro r _
    simp
  have h2 : total X = ∑ j, along X (Pi.single j 1) := by
    unfold total
    rw [Finset.sum_comm]
    exact Finset.sum_congr rfl fun j _ => h1 j
  rw [h2]
  simp only [along_expand X h]
  rw [Finset.sum_comm]
  apply Finset.sum_congr rfl
  intro k _
  rw [← Finset.mul_sum]
  have : ∑ j, (V.col k ⬝ᵥ Pi.single j 1) ^ 2 = 1 := by
    have e := svd_ortho h k k
    rw [if_pos rfl] at e
    refine Eq.trans ?_ e
    unfold dotProduct
    apply Finset.sum_congr rfl
    intro j _
    have := dotProduct_single_one (V.col k) j
    rw [dotProduct] at this
    rw [this, sq]
  rw [this, mul_one]

theorem takeCols_ok (V : Matrix (Fin c) (Fin c) ℝ) (s : Fin c → ℝ) : ∀ k i, i + k ≤ c → ∃ l w, takeCols V s k i = .ok (l, w) ∧ l.length = k ∧ w.length = k ∧
    ∀ j (h : i + j < c), j < k → l[j]? = some (V.col ⟨i + j, h⟩) ∧ w[j]? = some (weight s ⟨i + j, h⟩) := by
  intro k
  induction k with
  | zero => intro i _; exact ⟨[], [], rfl, rfl, rfl, fun j _ h => by omega⟩
  | succ k ih =>
    intro i hi
    obtain ⟨l, w, h1, h2, h3, h4⟩ := ih (i + 1) (by omega)
    refine ⟨V.col ⟨i, by omega⟩ :: l, weight s ⟨i, by omega⟩ :: w, ?_, by simp [h2], by simp [h3], ?_⟩
    · rw [takeCols, dif_pos (by omega), h1]; rfl
    · intro j hj hk
      rcases j with _ | j
      · simp
      · have := h4 j (by omega) (by omega)
        have e : i + 1 + j = i + (j + 1) := by omega
        simpa [e] using this

theorem takeCols_ub (V : Matrix (Fin c) (Fin c) ℝ) (s : Fin c → ℝ) : ∀ k i, c < i + k → i ≤ c → takeCols V s k i = .ub := by
  intro k
  induction k with
  | zero => intro i h1 h2; omega
  | succ k ih =>
    intro i h1 h2
    rw [takeCols]
    split
    · rw [ih (i + 1) (by omega) (by omega)]; rfl
    · rfl

/-- The data are left with every column less its mean (so every column sums to zero). -/
theorem C165_centred (X : Dat n c) (want : ℕ) (o : PcaOut n c) (h : Pca X want (.ok o)) :
    (∀ i j, o.data i j = X i j - (∑ r, X r j) / (n + 1 : ℕ)) ∧ ∀ j, ∑ r, o.data r j = 0 := by
  obtain ⟨V, s, hS, ho⟩ := h
  have hd : o.data = demean X := by
    cases hr : takeCols V s (dims want c) 0 with
    | ub => rw [hr] at ho; simp [Res.bind] at ho
    | ok r => rw [hr] at ho; simp [Res.bind] at ho; rw [ho]
  rw [hd]
  refine ⟨fun i j => rfl, fun j => ?_⟩
  have : ∑ r : Fin (n + 1), (X r j - (∑ r, X r j) / (n + 1 : ℕ)) = 0 := by
    rw [Finset.sum_sub_distrib, Finset.sum_const, Finset.card_univ, Fintype.card_fin, nsmul_eq_mul, mul_div_cancel₀, sub_self]
    positivity
  exact this

/-- The result of a call that wants no more dimensions than there are columns, in terms of the data as centred: the components are orthonormal, each weight is the share of the
total variation that lies along its component, the weights do not increase, and no direction orthogonal to the earlier components has more variation along it. -/
theorem C165_components (X : Dat n c) (want : ℕ) (hw : want ≤ c) (ht : total (demean X) ≠ 0) (r : Res (PcaOut n c)) (h : Pca X want r) :
    ∃ o : PcaOut n c, r = .ok o ∧ o.data = demean X ∧ o.comps.length = (if want = 0 then c else want) ∧ o.weights.length = o.comps.length ∧
      (∀ (i j : ℕ) (hi : i < o.comps.length) (hj : j < o.comps.length), o.comps[i] ⬝ᵥ o.comps[j] = if i = j then 1 else 0) ∧
      (∀ (i : ℕ) (hi : i < o.comps.length), o.weights[i]? = some (.val (along o.data o.comps[i] / total o.data))) ∧
      (∀ (i : ℕ) (hi : i < o.comps.length) (w : Fin c → ℝ), w ⬝ᵥ w = 1 → (∀ (j : ℕ) (hj : j < o.comps.length), j < i → o.comps[j] ⬝ᵥ w = 0) →
        along o.data w ≤ along o.data o.comps[i]) ∧
      ∀ (i : ℕ) (hi : i < o.comps.length), ((demean X)ᵀ * demean X) *ᵥ o.comps[i] = along o.data o.comps[i] • o.comps[i] := by
  obtain ⟨V, s, hS, ho⟩ := h
  have hdim : dims want c ≤ c := by unfold dims; split <;> omega
  obtain ⟨l, w, h1, h2, h3, h4⟩ := takeCols_ok V s (dims want c) 0 (by omega)
  rw [h1] at ho
  have hal : ∀ k : Fin c, along (demean X) (V.col k) = s k := by
    intro k
    rw [along_expand (demean X) hS, Finset.sum_eq_single k]
    · rw [svd_ortho hS, if_pos rfl]; ring
    · intro b _ hb
      rw [svd_ortho hS, if_neg hb]; ring
    · simp
  have hget : ∀ (i : ℕ) (hi : i < l.length), l[i] = V.col ⟨i, by omega⟩ := by
    intro i hi
    have := (h4 i (by omega) (by omega)).1
    rw [List.getElem?_eq_getElem hi] at this
    simpa using this
  refine ⟨⟨demean X, l, w⟩, ho, rfl, h2, by rw [h3, h2], ?_, ?_, ?_, ?_⟩
  · intro i j hi hj
    rw [hget i hi, hget j hj, svd_ortho hS]
    simp [Fin.ext_iff]
  · intro i hi
    have hi' : i < l.length := hi
    have := (h4 i (by omega) (by omega)).2
    simp only [hget i hi]
    rw [hal, this]
    simp [weight, total_eq _ hS, ht]
  · intro i hi v hv hort
    have hi' : i < l.length := hi
    simp only [hget i hi]
    rw [hal, along_expand (demean X) hS]
    have : ∑ k, s k * (V.col k ⬝ᵥ v) ^ 2 ≤ ∑ k, s ⟨i, by omega⟩ * (V.col k ⬝ᵥ v) ^ 2 := by
      apply Finset.sum_le_sum
      intro k _
      by_cases hk : k.1 < i
      · have := hort k.1 (by simp only; omega) hk
        simp only [hget k.1 (by omega)] at this
        rw [this]
        simp
      · exact mul_le_mul_of_nonneg_right (hS.2.1 _ _ (by rw [Fin.le_def]; simp only; omega)) (sq_nonneg _)
    rw [← Finset.mul_sum, ← norm_expand hS, hv, mul_one] at this
    exact this
  · intro i hi
    simp only [hget i hi]
    rw [hal]
    exact svd_eigen (gram_psd _) hS _

/-- The values of a list of weights, added up. -/
def sumVals : List Dbl → ℝ
  | [] => 0
  | .val x :: l => x + sumVals l
  | .nan :: l => sumVals l

theorem sumVals_eq (l : List Dbl) (f : ℕ → ℝ) (h : ∀ i, i < l.length → l[i]? = some (.val (f i))) : sumVals l = ∑ i ∈ Finset.range l.length, f i := by
  induction l generalizing f with
  | nil => simp [sumVals]
  | cons a l ih =>
    have h0 := h 0 (by simp)
    simp at h0
    subst h0
    rw [sumVals, ih (fun i => f (i + 1)) (fun i hi => by simpa using h (i + 1) (by simpa using hi)), List.length_cons, Finset.sum_range_succ' f]
    ring

theorem weights_sum (X : Dat n c) (want : ℕ) (hw : want ≤ c) (ht : total (demean X) ≠ 0) (o : PcaOut n c) (V : Matrix (Fin c) (Fin c) ℝ) (s : Fin c → ℝ)
    (hS : Svd ((demean X)ᵀ * demean X) V s) (ho : (.ok o : Res (PcaOut n c)) = (takeCols V s (dims want c) 0).bind fun r => .ok ⟨demean X, r.1, r.2⟩) :
    sumVals o.weights * total (demean X) = ∑ k : Fin c, if k.1 < dims want c then s k else 0 := by
  have hdim : dims want c ≤ c := by unfold dims; split <;> omega
  obtain ⟨l, w, h1, h2, h3, h4⟩ := takeCols_ok V s (dims want c) 0 (by omega)
  rw [h1] at ho
  simp only [Res.bind, Res.ok.injEq] at ho
  subst ho
  simp only
  rw [sumVals_eq w (fun i => if h : i < c then s ⟨i, h⟩ / total (demean X) else 0) (fun i hi => by
    have hic : i < c := by omega
    have := (h4 i (by omega) (by omega)).2
    rw [this]
    simp [weight, total_eq _ hS, ht, hic]), h3, Finset.sum_mul, Finset.sum_ite, Finset.sum_const_zero, add_zero]
  have : ∀ i ∈ Finset.range (dims want c), (if h : i < c then s ⟨i, h⟩ / total (demean X) else 0) * total (demean X) = if h : i < c then s ⟨i, h⟩ else 0 := by
    intro i hi
    rw [Finset.mem_range] at hi
    rw [dif_pos (by omega), dif_pos (by omega), div_mul_cancel₀ _ ht]
  rw [Finset.sum_congr rfl this]
  refine Finset.sum_bij' (fun i hi => (⟨i, by rw [Finset.mem_range] at hi; omega⟩ : Fin c)) (fun k _ => k.1) ?_ ?_ ?_ ?_ ?_
  · intro i hi; rw [Finset.mem_range] at hi; simpa using hi
  · intro k hk; simpa using hk
  · intro i hi; rfl
  · intro k hk; rfl
  · intro i hi
    rw [Finset.mem_range] at hi
    rw [dif_pos (by omega)]

/-- The weights add up to at most one, to exactly one when all the columns' dimensions are asked for, and in general to one
exactly when what is left out carries no variation: the data have none along any direction orthogonal to the components returned. -/
theorem C165_sum (X : Dat n c) (want : ℕ) (hw : want ≤ c) (ht : total (demean X) ≠ 0) (o : PcaOut n c) (h : Pca X want (.ok o)) :
    sumVals o.weights ≤ 1 ∧ (want = 0 ∨ want = c → sumVals o.weights = 1) ∧
      (sumVals o.weights = 1 ↔ ∀ w : Fin c → ℝ, (∀ v ∈ o.comps, v ⬝ᵥ w = 0) → along o.data w = 0) := by
  obtain ⟨V, s, hS, ho⟩ := h
  have hsum := weights_sum X want hw ht o V s hS ho
  have hdim : dims want c ≤ c := by unfold dims; split <;> omega
  have htot := total_eq _ hS
  have hpos : 0 < total (demean X) := lt_of_le_of_ne (Finset.sum_nonneg fun _ _ => Finset.sum_nonneg fun _ _ => sq_nonneg _) (Ne.symm ht)
  have hle : sumVals o.weights * total (demean X) ≤ 1 * total (demean X) := by
    rw [hsum, one_mul, ← htot]
    apply Finset.sum_le_sum
    intro k _
    split
    · rfl
    · exact hS.1 k
  have hiff : sumVals o.weights = 1 ↔ ∀ k : Fin c, dims want c ≤ k.1 → s k = 0 := by
    constructor
    · intro h1
      rw [h1, one_mul, ← htot] at hsum
      intro k hk
      have h2 : ∑ k : Fin c, (s k - if k.1 < dims want c then s k else 0) = 0 := by
        rw [Finset.sum_sub_distrib, ← hsum, sub_self]
      rw [Finset.sum_eq_zero_iff_of_nonneg] at h2
      · have := h2 k (Finset.mem_univ _)
        rw [if_neg (by omega)] at this
        linarith
      · intro j _
        split
        · simp
        · have := hS.1 j; linarith
    · intro h1
      have : ∑ k : Fin c, (if k.1 < dims want c then s k else 0) = ∑ k, s k := by
        apply Finset.sum_congr rfl
        intro k _
        split
        · rfl
        · rw [h1 k (by omega)]
      rw [this, htot] at hsum
      have := mul_right_cancel₀ ht (hsum.trans (one_mul _).symm)
      exact this
  obtain ⟨l, w, h1, h2, h3, h4⟩ := takeCols_ok V s (dims want c) 0 (by omega)
  rw [h1] at ho
  simp only [Res.bind, Res.ok.injEq] at ho
  subst ho
  refine ⟨le_of_mul_le_mul_right hle hpos, ?_, hiff.trans ?_⟩
  · intro h
    apply hiff.2
    intro k hk
    have : dims want c = c := by unfold dims; split <;> omega
    omega
  · constructor
    · intro h0 v hv
      simp only at hv ⊢
      rw [along_expand _ hS]
      apply Finset.sum_eq_zero
      intro k _
      by_cases hk : k.1 < dims want c
      · have hm : V.col k ∈ l := by
          have := (h4 k.1 (by omega) hk).1
          rw [List.getElem?_eq_some_iff] at this
          obtain ⟨hlt, he⟩ := this
          have e : (⟨0 + k.1, by omega⟩ : Fin c) = k := by ext; simp
          rw [e] at he
          exact he ▸ List.getElem_mem hlt
        rw [hv _ hm]; simp
      · rw [h0 k (by omega), zero_mul]
    · intro h0 k hk
      have := h0 (V.col k) (by
        intro v hv
        simp only at hv
        obtain ⟨i, hi, rfl⟩ := List.mem_iff_getElem.1 hv
        have := (h4 i (by omega) (by omega)).1
        rw [List.getElem?_eq_getElem hi] at this
        rw [Option.some.inj this, svd_ortho hS, if_neg]
        intro hc
        have := congrArg Fin.val hc
        simp at this
        omega)
      simp only at this
      rw [along_expand _ hS, Finset.sum_eq_single k] at this
      · rw [svd_ortho hS, if_pos rfl] at this
        linarith
      · intro b _ hb
        rw [svd_ortho hS, if_neg hb]; ring
      · simp

/-- **No other set of as many orthonormal directions explains more** than the components returned. -/
theorem C165_best (X : Dat n c) (want : ℕ) (hw : want ≤ c) (ht : total (demean X) ≠ 0) (o : PcaOut n c) (h : Pca X want (.ok o))
    (d : ℕ) (w : Fin d → Fin c → ℝ) (hd : d = o.comps.length) (hort : ∀ i j, w i ⬝ᵥ w j = if i = j then 1 else 0) :
    ∑ i, along o.data (w i) / total o.data ≤ sumVals o.weights := by
  obtain ⟨V, s, hS, ho⟩ := h
  have hsum := weights_sum X want hw ht o V s hS ho
  have hdim : dims want c ≤ c := by unfold dims; split <;> omega
  have hpos : 0 < total (demean X) := lt_of_le_of_ne (Finset.sum_nonneg fun _ _ => Finset.sum_nonneg fun _ _ => sq_nonneg _) (Ne.symm ht)
  obtain ⟨l, w', h1, h2, h3, h4⟩ := takeCols_ok V s (dims want c) 0 (by omega)
  rw [h1] at ho
  simp only [Res.bind, Res.ok.injEq] at ho
  subst ho
  simp only at hd hsum ⊢
  rw [← Finset.sum_div, div_le_iff₀ hpos, hsum]
  rw [h2] at hd
  -- the share of each component in the span of the `w`s
  have hp1 : ∀ k, ∑ i, (V.col k ⬝ᵥ w i) ^ 2 ≤ 1 := by
    intro k
    have h0 : 0 ≤ (V.col k - ∑ i, (V.col k ⬝ᵥ w i) • w i) ⬝ᵥ (V.col k - ∑ i, (V.col k ⬝ᵥ w i) • w i) := by
      exact Finset.sum_nonneg fun _ _ => mul_self_nonneg _
    have e1 : V.col k ⬝ᵥ (∑ i, (V.col k ⬝ᵥ w i) • w i) = ∑ i, (V.col k ⬝ᵥ w i) ^ 2 := by
      rw [dotProduct_sum]
      apply Finset.sum_congr rfl
      intro i _
      rw [dotProduct_smul, smul_eq_mul, sq]
    have e2 : (∑ i, (V.col k ⬝ᵥ w i) • w i) ⬝ᵥ (∑ i, (V.col k ⬝ᵥ w i) • w i) = ∑ i, (V.col k ⬝ᵥ w i) ^ 2 := by
      rw [sum_dotProduct]
      apply Finset.sum_congr rfl
      intro i _
      rw [smul_dotProduct, dotProduct_sum, Finset.sum_eq_single i]
      · rw [dotProduct_smul, hort, if_pos rfl]
        simp [sq]
      · intro b _ hb
        rw [dotProduct_smul, hort, if_neg (Ne.symm hb)]
        simp
      · simp
    rw [sub_dotProduct, dotProduct_sub, dotProduct_sub, e1, e2, dotProduct_comm (∑ i, (V.col k ⬝ᵥ w i) • w i), e1, svd_ortho hS, if_pos rfl] at h0
    linarith
  have hp2 : ∑ k, ∑ i, (V.col k ⬝ᵥ w i) ^ 2 = d := by
    rw [Finset.sum_comm]
    have : ∀ i ∈ Finset.univ, ∑ k, (V.col k ⬝ᵥ w i) ^ 2 = 1 := by
      intro i _
      rw [← norm_expand hS, hort, if_pos rfl]
    rw [Finset.sum_congr rfl this]
    simp
  have hL : ∑ i, along (demean X) (w i) = ∑ k, s k * ∑ i, (V.col k ⬝ᵥ w i) ^ 2 := by
    simp only [along_expand (demean X) hS, Finset.mul_sum]
    exact Finset.sum_comm
  rw [hL]
  by_cases hd0 : dims want c = 0
  · have hdz : d = 0 := by omega
    subst hdz
    have hr : ∀ k ∈ Finset.univ, (if k.1 < dims want c then s k else 0) = 0 := by
      intro k _; rw [if_neg (by omega)]
    rw [Finset.sum_congr rfl hr]
    simp
  · have hlast : dims want c - 1 < c := by omega
    have key : ∀ k ∈ Finset.univ, s k * ∑ i, (V.col k ⬝ᵥ w i) ^ 2 - (if k.1 < dims want c then s k else 0) ≤
        s ⟨dims want c - 1, hlast⟩ * (∑ i, (V.col k ⬝ᵥ w i) ^ 2 - (if k.1 < dims want c then 1 else 0)) := by
      intro k _
      have hk0 : 0 ≤ ∑ i, (V.col k ⬝ᵥ w i) ^ 2 := Finset.sum_nonneg fun _ _ => sq_nonneg _
      split
      · have := hS.2.1 k ⟨dims want c - 1, hlast⟩ (by rw [Fin.le_def]; simp only; omega)
        nlinarith [hp1 k]
      · have := hS.2.1 ⟨dims want c - 1, hlast⟩ k (by rw [Fin.le_def]; simp only; omega)
        nlinarith
    have hfin := Finset.sum_le_sum key
    rw [Finset.sum_sub_distrib, ← Finset.mul_sum, Finset.sum_sub_distrib, hp2] at hfin
    have hcount : ∑ k : Fin c, (if k.1 < dims want c then (1 : ℝ) else 0) = dims want c := by
      rw [Finset.sum_boole]
      congr 1
      have : (Finset.univ.filter fun k : Fin c => k.1 < dims want c) = Finset.univ.map (Fin.castLEEmb hdim) := by
        ext k
        simp only [Finset.mem_filter, Finset.mem_univ, true_and, Finset.mem_map, Fin.castLEEmb_apply]
        constructor
        · intro hk; exact ⟨⟨k.1, hk⟩, rfl⟩
        · rintro ⟨a, rfl⟩; exact a.2
      rw [this, Finset.card_map, Finset.card_univ, Fintype.card_fin]
    have hz : (d : ℝ) - (dims want c : ℕ) = 0 := by rw [← hd, sub_self]
    rw [hcount, hz, mul_zero] at hfin
    linarith

/-- More dimensions than columns: a column that is not there is read. -/
theorem C165_too_many (X : Dat n c) (want : ℕ) (hw : c < want) (r : Res (PcaOut n c)) (h : Pca X want r) : r = .ub := by
  obtain ⟨V, s, _, rfl⟩ := h
  rw [takeCols_ub V s _ 0 (by unfold dims; split <;> omega) (by omega)]
  rfl

/-- Data whose columns are all constant: every weight is NaN. -/
theorem C165_constant_refuted (X : Dat n c) (want : ℕ) (ht : total (demean X) = 0) (o : PcaOut n c) (h : Pca X want (.ok o)) :
    ∀ w ∈ o.weights, w = .nan := by
  obtain ⟨V, s, hS, ho⟩ := h
  by_cases hw : c < want
  · have := C165_too_many X want hw _ ⟨V, s, hS, ho⟩
    cases this
  · obtain ⟨l, w, h1, h2, h3, h4⟩ := takeCols_ok V s (dims want c) 0 (by unfold dims; split <;> omega)
    rw [h1] at ho
    simp only [Res.bind, Res.ok.injEq] at ho
    subst ho
    intro x hx
    simp only at hx
    obtain ⟨i, hi, rfl⟩ := List.mem_iff_getElem.1 hx
    have hdim : dims want c ≤ c := by unfold dims; split <;> omega
    have := (h4 i (by omega) (by omega)).2
    rw [List.getElem?_eq_getElem hi] at this
    rw [Option.some.inj this]
    simp [weight, total_eq _ hS, ht]

/-- A case that meets the hypotheses: two points on the first axis. -/
example : total (demean (!![1, 5; 3, 5] : Dat 1 2)) ≠ 0 ∧ ∃ o, Pca (!![1, 5; 3, 5] : Dat 1 2) 1 (.ok o) := by
  have hd : demean (!![1, 5; 3, 5] : Dat 1 2) = !![-1, 0; 1, 0] := by
    ext i j
    fin_cases i <;> fin_cases j <;> simp [demean, Fin.sum_univ_two] <;> norm_num
  rw [hd]
  refine ⟨by simp [total, Fin.sum_univ_two], ?_⟩
  have hS : Svd ((demean (!![1, 5; 3, 5] : Dat 1 2))ᵀ * demean (!![1, 5; 3, 5] : Dat 1 2)) 1 ![2, 0] := by
    rw [hd]
    refine ⟨?_, ?_, by simp, by simp, 1, by simp, ?_⟩
    · intro i; fin_cases i <;> simp
    · intro i j h
      fin_cases i <;> fin_cases j <;> simp at h ⊢
    · ext i j
      fin_cases i <;> fin_cases j <;> simp [Matrix.mul_apply, Fin.sum_univ_two]
      norm_num
  exact ⟨_, 1, ![2, 0], hS, rfl⟩

end Apop.Linalg
