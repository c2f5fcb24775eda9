import Verif.Linalg.Psd
import Mathlib.Analysis.Matrix.Spectrum
import Mathlib.Analysis.SpecialFunctions.Pow.Real
import Mathlib.Tactic.Ring
import Mathlib.Tactic.Positivity

/-! # C164: apop_matrix_to_positive_semidefinite (apop_stats.m4.c:859-962)

Exact arithmetic. `gsl_eigen_symmv` by its defining equation: it reads the diagonal and the lower triangle and gives any
orthonormal set of eigenvectors with their eigenvalues, in any order. The input is square, `k + 1` by `k + 1`. -/

namespace Apop.Linalg

open Apop Matrix

variable {k : ℕ}

/-- Square matrices. -/
abbrev Sq (k : ℕ) := Matrix (Fin (k + 1)) (Fin (k + 1)) ℝ

/-- The symmetric matrix that `gsl_eigen_symmv` sees. -/
def lower (S : Sq k) : Sq k := Matrix.of fun i j => if j ≤ i then S i j else S j i

/-- `find_eigens`, apop_stats.m4.c:808-813. -/
def Eigen (S : Sq k) (l : Fin (k + 1) → ℝ) (Q : Sq k) : Prop := Q * Qᵀ = 1 ∧ Qᵀ * Q = 1 ∧ lower S = Q * diagonal l * Qᵀ

/-- `gsl_matrix_max`. -/
noncomputable def gmax (M : Sq k) : ℝ := Finset.univ.sup' Finset.univ_nonempty fun p : Fin (k + 1) × Fin (k + 1) => M p.1 p.2

/-- `gsl_matrix_min`. -/
noncomputable def gmin (M : Sq k) : ℝ := Finset.univ.inf' Finset.univ_nonempty fun p : Fin (k + 1) × Fin (k + 1) => M p.1 p.2

/-- `biggest_elmt`, apop_stats.m4.c:826-828. -/
noncomputable def biggest (M : Sq k) : ℝ := max |gmax M| |gmin M|

/-- `diagonal_size`, apop_stats.m4.c:821-824. -/
noncomputable def diagSize (M : Sq k) : ℝ := ∑ i, M i i

/-- `Q D Q'` with the columns of nonpositive eigenvalues removed, apop_stats.m4.c:891-913. -/
noncomputable def pruned (l : Fin (k + 1) → ℝ) (Q : Sq k) : Sq k :=
  (Matrix.of fun (i : Fin (k + 1)) (c : {c // ¬ l c ≤ 0}) => Q i c.1) * (diagonal fun c : {c // ¬ l c ≤ 0} => l c.1) *
    (Matrix.of fun (i : Fin (k + 1)) (c : {c // ¬ l c ≤ 0}) => Q i c.1)ᵀ

/-- Symmetrised, with the given diagonal, apop_stats.m4.c:914-920. -/
noncomputable def candidate (dg : Fin (k + 1) → ℝ) (p : Sq k) : Sq k :=
  Matrix.of fun i j => if i = j then dg i else (p i j + p j i) / 2

/-- A round that finds a positive eigenvalue, apop_stats.m4.c:884-931. -/
def Step (dg : Fin (k + 1) → ℝ) (d d' : Sq k) : Prop :=
  ∃ l Q, Eigen d l Q ∧ (∃ i, ¬ l i ≤ 0) ∧ d' = candidate dg (pruned l Q)

/-- A round that finds none and breaks off, apop_stats.m4.c:899. -/
def Stuck (d : Sq k) : Prop := ∃ l Q, Eigen d l Q ∧ ∀ i, l i ≤ 0

/-- The condition of the `while`, apop_stats.m4.c:932. -/
def Again (d d' : Sq k) : Prop := biggest (d - d') / biggest d > 1 / 1000

/-- The do-while loop: from the matrix on entry to the matrix on exit. -/
inductive Loop (dg : Fin (k + 1) → ℝ) : Sq k → Sq k → Prop
  | brk (d : Sq k) : Stuck d → Loop dg d d
  | stop (d d' : Sq k) : Step dg d d' → ¬ Again d d' → Loop dg d d'
  | more (d d' e : Sq k) : Step dg d d' → Again d d' → Loop dg d' e → Loop dg d e

/-- The eigenvalues raised, apop_stats.m4.c:939-945. -/
noncomputable def raised (l : Fin (k + 1) → ℝ) : Fin (k + 1) → ℝ := fun i => if l i < 1 / 10 then 1 / 10 else l i

/-- The new matrix, apop_stats.m4.c:948-955. -/
noncomputable def rebuilt (size : ℝ) (l : Fin (k + 1) → ℝ) (Q : Sq k) : Sq k :=
  Q * ((size / diagSize (diagonal (raised l))) • diagonal (raised l)) * Qᵀ

/-- What a call can do. -/
inductive Out (k : ℕ) where
  /-- Returns this number, leaving this matrix. -/
  | ret (x : ℝ) (m : Sq k)
  /-- The final `assert` fails. -/
  | aborts

/-- The end of the function, apop_stats.m4.c:934-962. -/
def Finish (m d : Sq k) (o : Out k) : Prop :=
  ∃ l Q, Eigen d l Q ∧
    ((isPsd (some (ofMatrix (k + 1) (rebuilt |diagSize m| l Q))) 's' = .ok 0 ∧ o = .aborts) ∨
      (isPsd (some (ofMatrix (k + 1) (rebuilt |diagSize m| l Q))) 's' = .ok 1 ∧
        o = .ret (biggest (m - rebuilt |diagSize m| l Q) / biggest m) (rebuilt |diagSize m| l Q)))

/-- `apop_matrix_to_positive_semidefinite`, apop_stats.m4.c:871-962. -/
def Runs (m : Sq k) (o : Out k) : Prop :=
  (isPsd (some (ofMatrix (k + 1) m)) 's' = .ok 1 ∧ o = .ret 0 m) ∨
    (isPsd (some (ofMatrix (k + 1) m)) 's' = .ok 0 ∧ ∃ d, Loop (fun i => |m i i|) m d ∧ Finish m d o)

/-! ### Basic facts -/

theorem is_of (m : Sq k) : Is (ofMatrix (k + 1) m) (k + 1) m := ⟨rfl, rfl, lead_of _ _⟩

theorem le_biggest (M : Sq k) (i j : Fin (k + 1)) : |M i j| ≤ biggest M := by
  have h1 : M i j ≤ gmax M := Finset.le_sup' (fun p : Fin (k + 1) × Fin (k + 1) => M p.1 p.2) (Finset.mem_univ (i, j))
  have h2 : gmin M ≤ M i j := Finset.inf'_le (fun p : Fin (k + 1) × Fin (k + 1) => M p.1 p.2) (Finset.mem_univ (i, j))
  rw [biggest, abs_le]
  constructor
  · have := neg_abs_le (gmin M)
    have := le_max_right |gmax M| |gmin M|
    linarith
  · have := le_abs_self (gmax M)
    have := le_max_left |gmax M| |gmin M|
    linarith

theorem biggest_mem (M : Sq k) : ∃ i j, biggest M = |M i j| := by
  obtain ⟨p, _, hp⟩ := Finset.exists_mem_eq_sup' (Finset.univ_nonempty) fun p : Fin (k + 1) × Fin (k + 1) => M p.1 p.2
  obtain ⟨q, _, hq⟩ := Finset.exists_mem_eq_inf' (Finset.univ_nonempty) fun p : Fin (k + 1) × Fin (k + 1) => M p.1 p.2
  rcases le_total |gmax M| |gmin M| with h | h
  · exact ⟨q.1, q.2, by rw [biggest, max_eq_right h, gmin, hq]⟩
  · exact ⟨p.1, p.2, by rw [biggest, max_eq_left h, gmax, hp]⟩

theorem raised_pos (l : Fin (k + 1) → ℝ) (i : Fin (k + 1)) : 1 / 10 ≤ raised l i := by
  unfold raised
  split
  · rfl
  · linarith

theorem raised_sum_pos (l : Fin (k + 1) → ℝ) : 0 < diagSize (diagonal (raised l)) := by
  unfold diagSize
  apply Finset.sum_pos
  · intro i _
    have := raised_pos l i
    simp only [diagonal_apply_eq]
    linarith
  · exact Finset.univ_nonempty

theorem rebuilt_symm (s : ℝ) (l : Fin (k + 1) → ℝ) (Q : Sq k) : (rebuilt s l Q).IsSymm := by
  unfold rebuilt IsSymm
  simp [Matrix.transpose_mul, Matrix.mul_assoc]

theorem rebuilt_trace (s : ℝ) (l : Fin (k + 1) → ℝ) (Q : Sq k) (hQ : Qᵀ * Q = 1) : (rebuilt s l Q).trace = s := by
  unfold rebuilt
  rw [Matrix.trace_mul_comm, ← Matrix.mul_assoc, hQ, Matrix.one_mul, Matrix.trace_smul]
  have : (diagonal (raised l)).trace = diagSize (diagonal (raised l)) := rfl
  rw [this, smul_eq_mul, div_mul_cancel₀]
  exact (raised_sum_pos l).ne'

theorem rebuilt_posDef (s : ℝ) (hs : 0 < s) (l : Fin (k + 1) → ℝ) (Q : Sq k) (hQ : Q * Qᵀ = 1) : (rebuilt s l Q).PosDef := by
  unfold rebuilt
  have hd : (((s / diagSize (diagonal (raised l))) • diagonal (raised l)) : Sq k).PosDef := by
    rw [← diagonal_smul]
    apply PosDef.diagonal
    intro i
    have h1 := raised_pos l i
    have h2 := raised_sum_pos l
    simp only [Pi.smul_apply, smul_eq_mul]
    apply mul_pos (div_pos hs h2)
    linarith
  have hu : IsUnit Q := IsUnit.of_mul_eq_one _ hQ
  have := (Matrix.IsUnit.posDef_star_right_conjugate_iff hu).2 hd
  rwa [star_eq_conjTranspose, conjTranspose_eq_transpose_of_trivial] at this

/-! ### What comes back -/

/-- **Every call on a square matrix with a nonzero trace that returns, returns a positive definite symmetric matrix**, unchanged (and zero) if the test passed, and otherwise with the trace of the original up to sign, together with the largest change relative to the largest original element. It never aborts. -/
theorem C164_result (m : Sq k) (ht : m.trace ≠ 0) (o : Out k) (h : Runs m o) :
    (isPsd (some (ofMatrix (k + 1) m)) 's' = .ok 1 ∧ o = .ret 0 m) ∨
      ∃ m' x, o = .ret x m' ∧ m'.PosDef ∧ m'.trace = |m.trace| ∧
        (∀ i j, |m i j - m' i j| ≤ x * biggest m) ∧ ∃ i j, |m i j - m' i j| = x * biggest m := by
  rcases h with h | ⟨_, d, _, l, Q, ⟨hQ, hQ', _⟩, hf⟩
  · exact .inl h
  · right
    have hs : 0 < |diagSize m| := abs_pos.2 ht
    have hp := rebuilt_posDef |diagSize m| hs l Q hQ
    rcases hf with ⟨h0, _⟩ | ⟨_, rfl⟩
    · rcases C163_iff _ _ _ (is_of (rebuilt |diagSize m| l Q)) (rebuilt_symm _ _ _) 's' with ⟨_, h1⟩ | ⟨h1, _⟩
      · rw [h0] at h1; simp at h1
      · exact absurd hp h1
    · have hb : biggest m ≠ 0 := by
        intro h0
        apply ht
        rw [Matrix.trace]
        apply Finset.sum_eq_zero
        intro i _
        have := le_biggest m i i
        rw [h0] at this
        simpa using this
      refine ⟨_, _, rfl, hp, rebuilt_trace _ _ _ hQ', fun i j => ?_, ?_⟩
      · rw [div_mul_cancel₀ _ hb]
        exact le_biggest (m - rebuilt |diagSize m| l Q) i j
      · obtain ⟨i, j, hij⟩ := biggest_mem (m - rebuilt |diagSize m| l Q)
        exact ⟨i, j, by rw [div_mul_cancel₀ _ hb, hij]; rfl⟩

/-- A symmetric matrix comes back unchanged with zero exactly when it is positive definite; otherwise the change reported is positive. -/
theorem C164_zero (m : Sq k) (hs : m.IsSymm) (ht : m.trace ≠ 0) (x : ℝ) (m' : Sq k) (h : Runs m (.ret x m')) :
    (m.PosDef ∧ x = 0 ∧ m' = m) ∨ (¬ m.PosDef ∧ 0 < x ∧ m' ≠ m) := by
  rcases C163_iff _ _ _ (is_of m) hs 's' with ⟨h1, h2⟩ | ⟨h1, h2⟩
  · rcases h with ⟨_, h⟩ | ⟨h, _⟩
    · cases h; exact .inl ⟨h1, rfl, rfl⟩
    · rw [h2] at h; simp at h
  · right
    rcases C164_result m ht _ h with ⟨h3, _⟩ | ⟨m'', x', h3, h4, _, h5, _⟩
    · rw [h2] at h3; simp at h3
    · cases h3
      have hne : m' ≠ m := fun hc => h1 (hc ▸ h4)
      refine ⟨h1, ?_, hne⟩
      by_contra hx
      apply hne
      ext i j
      have h6 := h5 i j
      have h7 : x * biggest m ≤ 0 := mul_nonpos_of_nonpos_of_nonneg (not_lt.1 hx) ((abs_nonneg _).trans (le_biggest m 0 0))
      have : m i j - m' i j = 0 := abs_eq_zero.1 (le_antisymm (h6.trans h7) (abs_nonneg _))
      linarith

/-- Calling it again changes nothing. -/
theorem C164_idempotent (m : Sq k) (ht : m.trace ≠ 0) (x : ℝ) (m' : Sq k) (h : Runs m (.ret x m')) (o : Out k) (h' : Runs m' o) :
    o = .ret 0 m' := by
  have h1 : isPsd (some (ofMatrix (k + 1) m')) 's' = .ok 1 := by
    rcases C164_result m ht _ h with ⟨h3, h4⟩ | ⟨m'', x', h3, h4, _⟩
    · cases h4; exact h3
    · cases h3
      have hs : m'.IsSymm := by
        have := h4.isHermitian
        rw [IsHermitian, conjTranspose_eq_transpose_of_trivial] at this
        exact this
      rcases C163_iff _ _ _ (is_of m') hs 's' with ⟨_, h5⟩ | ⟨h5, _⟩
      · exact h5
      · exact absurd h4 h5
  rcases h' with ⟨_, h⟩ | ⟨h, _⟩
  · exact h
  · rw [h1] at h; simp at h

/-- A matrix whose diagonal sums to zero is never repaired: any call that gets to the end is stopped by the `assert`. -/
theorem C164_trace_zero_refuted (m : Sq k) (ht : m.trace = 0) (hm : isPsd (some (ofMatrix (k + 1) m)) 's' = .ok 0) (o : Out k) (h : Runs m o) :
    o = .aborts := by
  rcases h with ⟨h, _⟩ | ⟨_, d, _, l, Q, ⟨hQ, hQ', _⟩, hf⟩
  · rw [hm] at h; simp at h
  · have h0 : diagSize m = 0 := ht
    have hz : rebuilt |diagSize m| l Q = 0 := by rw [h0]; simp [rebuilt]
    rcases hf with ⟨_, rfl⟩ | ⟨h1, _⟩
    · rfl
    · rw [hz] at h1
      have := (C163_sound_any _ _ _ (is_of (0 : Sq k)) 's' h1 (by omega)).2
      simp at this

/-- The result is not the closest: for this matrix every call reports a relative distance greater than 1/2, though a positive semidefinite matrix lies at distance 1/2. -/
theorem C164_closest_refuted (x : ℝ) (m' : Sq 1) (h : Runs (!![2, 0; 0, -1] : Sq 1) (.ret x m')) :
    1 / 2 < x ∧ (!![2, 0; 0, 0] : Sq 1).PosSemidef ∧ biggest ((!![2, 0; 0, -1] : Sq 1) - !![2, 0; 0, 0]) / biggest (!![2, 0; 0, -1] : Sq 1) = 1 / 2 := by
  have ht : (!![2, 0; 0, -1] : Sq 1).trace = 1 := by
    rw [Matrix.trace_fin_two_of]; norm_num
  have hb : biggest (!![2, 0; 0, -1] : Sq 1) = 2 := by
    obtain ⟨i, j, hij⟩ := biggest_mem (!![2, 0; 0, -1] : Sq 1)
    have := le_biggest (!![2, 0; 0, -1] : Sq 1) 0 0
    simp at this
    apply le_antisymm _ this
    rw [hij]
    fin_cases i <;> fin_cases j <;> simp
  have hb' : biggest ((!![2, 0; 0, -1] : Sq 1) - !![2, 0; 0, 0]) = 1 := by
    have e : ((!![2, 0; 0, -1] : Sq 1) - !![2, 0; 0, 0]) = !![0, 0; 0, -1] := by
      ext i j; fin_cases i <;> fin_cases j <;> simp
    rw [e]
    obtain ⟨i, j, hij⟩ := biggest_mem (!![0, 0; 0, -1] : Sq 1)
    have := le_biggest (!![0, 0; 0, -1] : Sq 1) 1 1
    simp at this
    apply le_antisymm _ this
    rw [hij]
    fin_cases i <;> fin_cases j <;> simp
  refine ⟨?_, ?_, by rw [hb, hb']⟩
  · rcases C164_result _ (by rw [ht]; norm_num) _ h with ⟨h1, _⟩ | ⟨m'', x', h1, h2, h3, h4, _⟩
    · have := (C163_sound_any _ _ _ (is_of (!![2, 0; 0, -1] : Sq 1)) 's' h1 (by omega)).1
      rw [Matrix.det_fin_two_of] at this
      norm_num at this
    · cases h1
      have hd := h2.diag_pos (i := 1)
      have h5 := h4 1 1
      rw [hb] at h5
      have h6 : |(-1 : ℝ) - m' 1 1| = 1 + m' 1 1 := by rw [abs_of_neg (by linarith)]; ring
      simp only [Matrix.of_apply, Matrix.cons_val', Matrix.cons_val_one, Matrix.cons_val_fin_one] at h5
      rw [h6] at h5
      linarith
  · have : (!![2, 0; 0, 0] : Sq 1) = diagonal ![2, 0] := by
      ext i j; fin_cases i <;> fin_cases j <;> simp
    rw [this]
    apply PosSemidef.diagonal
    intro i
    fin_cases i <;> simp

/-! ### Termination -/

/-- The squared Frobenius distance. -/
noncomputable def dist2 (A B : Sq k) : ℝ := ∑ i, ∑ j, (A i j - B i j) ^ 2

/-- The Frobenius inner product. -/
theorem trace_mul_t (A B : Sq k) : (A * Bᵀ).trace = ∑ i, ∑ j, A i j * B i j := by
  simp [Matrix.trace, Matrix.mul_apply]

theorem pruned_eq (l : Fin (k + 1) → ℝ) (Q : Sq k) : pruned l Q = Q * diagonal (fun i => max (l i) 0) * Qᵀ := by
  ext i j
  unfold pruned
  rw [Matrix.mul_apply, Matrix.mul_apply]
  simp only [Matrix.mul_diagonal, Matrix.transpose_apply, Matrix.of_apply]
  rw [← Finset.sum_subtype (p := fun c => ¬ l c ≤ 0) (Finset.univ.filter fun c => ¬ l c ≤ 0) (by simp) (fun c => Q i c * l c * Q j c), Finset.sum_filter]
  apply Finset.sum_congr rfl
  intro c _
  by_cases h : l c ≤ 0
  · simp [h]
  · rw [if_pos h, max_eq_left (not_le.1 h).le]

theorem pruned_symm (l : Fin (k + 1) → ℝ) (Q : Sq k) : (pruned l Q).IsSymm := by
  rw [pruned_eq]
  unfold IsSymm
  simp [Matrix.transpose_mul, Matrix.mul_assoc]

/-- The positive part is the projection on the positive semidefinite matrices. -/
theorem proj (l : Fin (k + 1) → ℝ) (Q S C : Sq k) (hQ' : Qᵀ * Q = 1) (hS : S = Q * diagonal l * Qᵀ) (hC : C.PosSemidef) :
    dist2 S (pruned l Q) + dist2 (pruned l Q) C ≤ dist2 S C := by
  have e1 : dist2 S C - dist2 S (pruned l Q) - dist2 (pruned l Q) C = 2 * ((S - pruned l Q) * (pruned l Q)ᵀ).trace - 2 * ((S - pruned l Q) * Cᵀ).trace := by
    rw [trace_mul_t, trace_mul_t]
    unfold dist2
    simp only [Finset.mul_sum, ← Finset.sum_sub_distrib]
    apply Finset.sum_congr rfl
    intro i _
    apply Finset.sum_congr rfl
    intro j _
    simp only [Matrix.sub_apply]
    ring
  have e2 : S - pruned l Q = Q * diagonal (fun i => min (l i) 0) * Qᵀ := by
    rw [pruned_eq, hS, ← Matrix.sub_mul, ← Matrix.mul_sub, diagonal_sub]
    congr 3
    ext i
    have := max_add_min (l i) 0
    linarith
  have e3 : ((S - pruned l Q) * (pruned l Q)ᵀ).trace = 0 := by
    rw [(pruned_symm l Q).eq, e2, pruned_eq]
    have : Q * diagonal (fun i => min (l i) 0) * Qᵀ * (Q * diagonal (fun i => max (l i) 0) * Qᵀ) = Q * diagonal (fun i => min (l i) 0 * max (l i) 0) * Qᵀ := by
      rw [← diagonal_mul_diagonal]
      calc _ = Q * diagonal (fun i => min (l i) 0) * (Qᵀ * Q) * diagonal (fun i => max (l i) 0) * Qᵀ := by simp only [Matrix.mul_assoc]
        _ = _ := by rw [hQ', Matrix.mul_one]; simp only [Matrix.mul_assoc]
    have h0 : (fun i => min (l i) 0 * max (l i) 0) = (0 : Fin (k + 1) → ℝ) := by
      ext i
      rw [min_mul_max]; simp
    rw [this, h0]
    simp
  have e4 : ((S - pruned l Q) * Cᵀ).trace ≤ 0 := by
    have hCt : Cᵀ = C := by
      have := hC.isHermitian
      rw [IsHermitian, conjTranspose_eq_transpose_of_trivial] at this
      exact this
    have h1 := hC.conjTranspose_mul_mul_same Q
    rw [conjTranspose_eq_transpose_of_trivial] at h1
    rw [hCt, e2, Matrix.mul_assoc, Matrix.mul_assoc, Matrix.trace_mul_comm, Matrix.mul_assoc]
    rw [Matrix.trace]
    apply Finset.sum_nonpos
    intro i _
    rw [Matrix.diag_apply, Matrix.diagonal_mul]
    exact mul_nonpos_of_nonpos_of_nonneg (min_le_right _ _) h1.diag_nonneg
  linarith

theorem candidate_off {dg : Fin (k + 1) → ℝ} {p : Sq k} (hp : p.IsSymm) (i j : Fin (k + 1)) (h : i ≠ j) : candidate dg p i j = p i j := by
  have := hp.apply i j
  simp [candidate, h, this]

theorem candidate_dist (dg : Fin (k + 1) → ℝ) (p C : Sq k) (hp : p.IsSymm) (hC : ∀ i, C i i = dg i) :
    dist2 p C = dist2 p (candidate dg p) + dist2 (candidate dg p) C := by
  unfold dist2
  rw [← Finset.sum_add_distrib]
  apply Finset.sum_congr rfl
  intro i _
  rw [← Finset.sum_add_distrib]
  apply Finset.sum_congr rfl
  intro j _
  by_cases h : i = j
  · subst h
    simp [candidate, hC]
  · rw [candidate_off hp i j h]
    ring

theorem dist2_tri (A B C : Sq k) : dist2 A C ≤ 2 * (dist2 A B + dist2 B C) := by
  unfold dist2
  rw [← Finset.sum_add_distrib, Finset.mul_sum]
  apply Finset.sum_le_sum
  intro i _
  rw [← Finset.sum_add_distrib, Finset.mul_sum]
  apply Finset.sum_le_sum
  intro j _
  nlinarith [sq_nonneg (A i j - B i j - (B i j - C i j))]

theorem dist2_nonneg (A B : Sq k) : 0 ≤ dist2 A B := Finset.sum_nonneg fun _ _ => Finset.sum_nonneg fun _ _ => sq_nonneg _

theorem le_dist2 (A B : Sq k) : (biggest (A - B)) ^ 2 ≤ dist2 A B := by
  obtain ⟨i, j, h⟩ := biggest_mem (A - B)
  rw [h, sq_abs]
  refine (Finset.single_le_sum (f := fun j => (A i j - B i j) ^ 2) (fun _ _ => sq_nonneg _) (Finset.mem_univ j)).trans ?_
  exact Finset.single_le_sum (f := fun i => ∑ j, (A i j - B i j) ^ 2) (fun _ _ => Finset.sum_nonneg fun _ _ => sq_nonneg _) (Finset.mem_univ i)

theorem lower_symm {S : Sq k} (h : S.IsSymm) : lower S = S := by
  ext i j
  unfold lower
  simp only [Matrix.of_apply]
  split
  · rfl
  · exact h.apply i j

/-- A matrix the loop has made: symmetric with the kept diagonal. -/
def Good (dg : Fin (k + 1) → ℝ) (d : Sq k) : Prop := d.IsSymm ∧ ∀ i, d i i = dg i

theorem step_good {dg : Fin (k + 1) → ℝ} {d d' : Sq k} (h : Step dg d d') : Good dg d' := by
  obtain ⟨l, Q, _, _, rfl⟩ := h
  refine ⟨?_, fun i => by simp [candidate]⟩
  ext i j
  simp only [candidate, Matrix.transpose_apply, Matrix.of_apply]
  by_cases h : i = j
  · subst h; simp
  · rw [if_neg h, if_neg (Ne.symm h), add_comm]

/-- Each round that goes on brings the matrix nearer, by at least a fixed amount, to the diagonal matrix of the absolute values. -/
theorem step_closer {dg : Fin (k + 1) → ℝ} (hdg : ∀ i, 0 ≤ dg i) {c : Fin (k + 1)} (hc : 0 < dg c) {d d' : Sq k} (hg : Good dg d) (h : Step dg d d') (ha : Again d d') :
    dist2 d' (diagonal dg) + (dg c / 1000) ^ 2 / 2 ≤ dist2 d (diagonal dg) := by
  obtain ⟨l, Q, ⟨_, hQ', hS⟩, _, rfl⟩ := h
  rw [lower_symm hg.1] at hS
  have h1 := proj l Q d (diagonal dg) hQ' hS (PosSemidef.diagonal hdg)
  have h2 := candidate_dist dg (pruned l Q) (diagonal dg) (pruned_symm l Q) (fun i => by simp)
  have h3 := dist2_tri d (pruned l Q) (candidate dg (pruned l Q))
  have h4 := le_dist2 d (candidate dg (pruned l Q))
  have h5 : dg c ≤ biggest d := by
    have := le_biggest d c c
    rw [hg.2 c, abs_of_pos hc] at this
    exact this
  have h6 : dg c / 1000 ≤ biggest (d - candidate dg (pruned l Q)) := by
    unfold Again at ha
    rw [gt_iff_lt, lt_div_iff₀ (by linarith)] at ha
    linarith
  have h7 : (dg c / 1000) ^ 2 ≤ biggest (d - candidate dg (pruned l Q)) ^ 2 := pow_le_pow_left₀ (by positivity) h6 2
  linarith

/-- **The loop always ends** for a matrix with a nonzero element on the diagonal, whatever eigenvectors GSL gives: there is no endless run. -/
theorem C164_terminates (m : Sq k) (c : Fin (k + 1)) (hc : m c c ≠ 0) :
    ¬ ∃ f : ℕ → Sq k, f 0 = m ∧ ∀ n, Step (fun i => |m i i|) (f n) (f (n + 1)) ∧ Again (f n) (f (n + 1)) := by
  rintro ⟨f, h0, hf⟩
  have hε : 0 < (|m c c| / 1000) ^ 2 / 2 := by positivity
  have key : ∀ n : ℕ, dist2 (f (n + 1)) (diagonal fun i => |m i i|) + n * ((|m c c| / 1000) ^ 2 / 2) ≤ dist2 (f 1) (diagonal fun i => |m i i|) := by
    intro n
    induction n with
    | zero => simp
    | succ n ih =>
      have := step_closer (dg := fun i => |m i i|) (fun i => abs_nonneg _) (c := c) (abs_pos.2 hc) (step_good (hf n).1) (hf (n + 1)).1 (hf (n + 1)).2
      push_cast
      linarith
  obtain ⟨n, hn⟩ := exists_nat_gt (dist2 (f 1) (diagonal fun i => |m i i|) / ((|m c c| / 1000) ^ 2 / 2))
  rw [div_lt_iff₀ hε] at hn
  have := key n
  have := dist2_nonneg (f (n + 1)) (diagonal fun i => |m i i|)
  linarith

theorem eigen_exists (S : Sq k) : ∃ l Q, Eigen S l Q := by
  have hA : (lower S).IsHermitian := by
    rw [IsHermitian, conjTranspose_eq_transpose_of_trivial]
    ext i j
    simp only [lower, Matrix.transpose_apply, Matrix.of_apply]
    rcases lt_trichotomy i j with h | h | h
    · rw [if_pos h.le, if_neg (not_le.2 h)]
    · subst h; rfl
    · rw [if_neg (not_le.2 h), if_pos h.le]
  refine ⟨hA.eigenvalues, (hA.eigenvectorUnitary : Sq k), ?_, ?_, ?_⟩
  · have := Unitary.coe_mul_star_self hA.eigenvectorUnitary
    rwa [Unitary.coe_star, star_eq_conjTranspose, conjTranspose_eq_transpose_of_trivial] at this
  · have := Unitary.coe_star_mul_self hA.eigenvectorUnitary
    rwa [star_eq_conjTranspose, conjTranspose_eq_transpose_of_trivial] at this
  · have := hA.spectral_theorem
    rw [Unitary.conjStarAlgAut_apply, star_eq_conjTranspose, conjTranspose_eq_transpose_of_trivial] at this
    exact this

theorem loop_exists {dg : Fin (k + 1) → ℝ} (hdg : ∀ i, 0 ≤ dg i) {c : Fin (k + 1)} (hc : 0 < dg c) : ∀ (n : ℕ) (d : Sq k), Good dg d →
    dist2 d (diagonal dg) < n * ((dg c / 1000) ^ 2 / 2) → ∃ e, Loop dg d e := by
  intro n
  induction n with
  | zero =>
    intro d _ h
    have := dist2_nonneg d (diagonal dg)
    simp at h
    linarith
  | succ n ih =>
    intro d hg h
    obtain ⟨l, Q, hE⟩ := eigen_exists d
    by_cases hl : ∀ i, l i ≤ 0
    · exact ⟨d, .brk d ⟨l, Q, hE, hl⟩⟩
    · have hs : Step dg d (candidate dg (pruned l Q)) := ⟨l, Q, hE, not_forall.1 hl, rfl⟩
      by_cases ha : Again d (candidate dg (pruned l Q))
      · have h1 := step_closer hdg hc hg hs ha
        push_cast at h
        obtain ⟨e, he⟩ := ih _ (step_good hs) (by linarith)
        exact ⟨e, .more _ _ _ hs ha he⟩
      · exact ⟨_, .stop _ _ hs ha⟩

/-- A call on a square matrix with a nonzero trace does return. -/
theorem C164_returns (m : Sq k) (ht : m.trace ≠ 0) : ∃ x m', Runs m (.ret x m') := by
  have key : ∃ o, Runs m o := by
    rcases psdLoop_eq (ofMatrix (k + 1) m) 's' (k + 1) 1 (by simp [ofMatrix]; omega) with ⟨h, _⟩ | ⟨h, _⟩
    · exact ⟨_, .inl ⟨h, rfl⟩⟩
    · have hL : ∃ d, Loop (fun i => |m i i|) m d := by
        obtain ⟨c, hc⟩ : ∃ c, m c c ≠ 0 := by
          by_contra hn
          apply ht
          rw [Matrix.trace]
          exact Finset.sum_eq_zero fun i _ => by simpa using not_exists.1 hn i
        obtain ⟨l, Q, hE⟩ := eigen_exists m
        by_cases hl : ∀ i, l i ≤ 0
        · exact ⟨m, .brk m ⟨l, Q, hE, hl⟩⟩
        · have hs : Step (fun i => |m i i|) m (candidate (fun i => |m i i|) (pruned l Q)) := ⟨l, Q, hE, not_forall.1 hl, rfl⟩
          by_cases ha : Again m (candidate (fun i => |m i i|) (pruned l Q))
          · obtain ⟨n, hn⟩ := exists_nat_gt (dist2 (candidate (fun i => |m i i|) (pruned l Q)) (diagonal fun i => |m i i|) / ((|m c c| / 1000) ^ 2 / 2))
            rw [div_lt_iff₀ (by have := abs_pos.2 hc; positivity)] at hn
            obtain ⟨e, he⟩ := loop_exists (dg := fun i => |m i i|) (fun i => abs_nonneg _) (c := c) (abs_pos.2 hc) n _ (step_good hs) hn
            exact ⟨e, .more _ _ _ hs ha he⟩
          · exact ⟨_, .stop _ _ hs ha⟩
      obtain ⟨d, hd⟩ := hL
      obtain ⟨l, Q, hE⟩ := eigen_exists d
      rcases psdLoop_eq (ofMatrix (k + 1) (rebuilt |diagSize m| l Q)) 's' (k + 1) 1 (by simp [ofMatrix]; omega) with ⟨h', _⟩ | ⟨h', _⟩
      · exact ⟨_, .inr ⟨h, d, hd, l, Q, hE, .inr ⟨h', rfl⟩⟩⟩
      · exact ⟨_, .inr ⟨h, d, hd, l, Q, hE, .inl ⟨h', rfl⟩⟩⟩
  obtain ⟨o, ho⟩ := key
  rcases C164_result m ht o ho with ⟨_, rfl⟩ | ⟨m', x, rfl, _⟩
  · exact ⟨0, m, ho⟩
  · exact ⟨x, m', ho⟩

/-- The hypotheses are met by an indefinite matrix with a nonzero trace. -/
example : (!![2, 3; 3, -1] : Sq 1).trace ≠ 0 ∧ ¬ (!![2, 3; 3, -1] : Sq 1).PosDef := by
  refine ⟨by rw [Matrix.trace_fin_two_of]; norm_num, fun h => ?_⟩
  have := h.diag_pos (i := 1)
  simp at this
  linarith

/-! ### A call that never returns -/

/-- `s` off the diagonal, zero on it. -/
def swap (s : ℝ) : Sq 1 := !![0, s; s, 0]

theorem swap_pruned (s : ℝ) (hs : 0 < s) (l : Fin 2 → ℝ) (Q : Sq 1) (h : Eigen (swap s) l Q) : pruned l Q = !![s / 2, s / 2; s / 2, s / 2] := by
  obtain ⟨hQ, hQ', hS⟩ := h
  rw [lower_symm (by ext i j; fin_cases i <;> fin_cases j <;> simp [swap])] at hS
  have hmul : ∀ a b : Fin 2 → ℝ, Q * diagonal a * Qᵀ * (Q * diagonal b * Qᵀ) = Q * diagonal (fun i => a i * b i) * Qᵀ := by
    intro a b
    rw [← diagonal_mul_diagonal]
    calc _ = Q * diagonal a * (Qᵀ * Q) * diagonal b * Qᵀ := by simp only [Matrix.mul_assoc]
      _ = _ := by rw [hQ', Matrix.mul_one]; simp only [Matrix.mul_assoc]
  have hA2 : (Q * diagonal (fun i => |l i|) * Qᵀ) * (Q * diagonal (fun i => |l i|) * Qᵀ) = (s * s) • (1 : Sq 1) := by
    rw [hmul]
    have : (fun i => |l i| * |l i|) = fun i => l i * l i := by ext i; rw [abs_mul_abs_self]
    rw [this, ← hmul, ← hS]
    ext i j
    fin_cases i <;> fin_cases j <;> simp [swap, Matrix.mul_apply, Fin.sum_univ_two]
  have hApos : (Q * diagonal (fun i => |l i|) * Qᵀ).PosSemidef := by
    have hd : (diagonal (fun i => |l i|) : Sq 1).PosSemidef := PosSemidef.diagonal fun i => abs_nonneg _
    have := hd.mul_mul_conjTranspose_same Q
    rwa [conjTranspose_eq_transpose_of_trivial] at this
  have hplus : (Q * diagonal (fun i => |l i|) * Qᵀ + s • (1 : Sq 1)).PosDef :=
    PosDef.posSemidef_add hApos (PosDef.smul PosDef.one hs)
  have hA : Q * diagonal (fun i => |l i|) * Qᵀ = s • (1 : Sq 1) := by
    have h0 : (Q * diagonal (fun i => |l i|) * Qᵀ + s • (1 : Sq 1)) * (Q * diagonal (fun i => |l i|) * Qᵀ - s • (1 : Sq 1)) = 0 := by
      rw [Matrix.mul_sub, Matrix.add_mul, Matrix.add_mul, hA2]
      simp only [Matrix.smul_mul, Matrix.mul_smul, Matrix.one_mul, Matrix.mul_one, smul_smul]
      abel
    have := hplus.isUnit.mul_right_eq_zero.1 h0
    exact sub_eq_zero.1 this
  have hp : pruned l Q = (1 / 2 : ℝ) • (swap s + s • (1 : Sq 1)) := by
    rw [pruned_eq, ← hA, hS, ← Matrix.add_mul, ← Matrix.mul_add, diagonal_add, ← Matrix.smul_mul, ← Matrix.mul_smul, ← diagonal_smul]
    congr 3
    ext i
    simp only [Pi.smul_apply, smul_eq_mul]
    rcases le_total (l i) 0 with h | h
    · rw [max_eq_right h, abs_of_nonpos h]; ring
    · rw [max_eq_left h, abs_of_nonneg h]; ring
  rw [hp]
  ext i j
  fin_cases i <;> fin_cases j <;> simp [swap] <;> ring

theorem swap_big (s : ℝ) (hs : 0 < s) : biggest (swap s) = s := by
  obtain ⟨i, j, hij⟩ := biggest_mem (swap s)
  have := le_biggest (swap s) 0 1
  apply le_antisymm
  · rw [hij]
    fin_cases i <;> fin_cases j <;> simp [swap, abs_of_pos hs, hs.le]
  · simpa [swap, abs_of_pos hs] using this

theorem swap_loop (d e : Sq 1) (h : Loop (fun _ => 0) d e) : ∀ s, 0 < s → d ≠ swap s := by
  have cand : ∀ s : ℝ, candidate (fun _ => 0) (!![s / 2, s / 2; s / 2, s / 2] : Sq 1) = swap (s / 2) := by
    intro s
    ext i j
    fin_cases i <;> fin_cases j <;> simp [swap, candidate]
  have hd : ∀ s : ℝ, swap s - swap (s / 2) = swap (s / 2) := by
    intro s
    ext i j
    fin_cases i <;> fin_cases j <;> simp [swap] <;> ring
  induction h with
  | brk d hd' =>
    rintro s hs rfl
    obtain ⟨l, Q, hE, hl⟩ := hd'
    have := swap_pruned s hs l Q hE
    have h0 : pruned l Q = 0 := by
      rw [pruned_eq]
      have : (fun i => max (l i) 0) = (0 : Fin 2 → ℝ) := by ext i; exact max_eq_right (hl i)
      rw [this]; simp
    rw [h0] at this
    have := congrFun (congrFun this 0) 0
    simp at this
    linarith
  | stop d d' hst hn =>
    rintro s hs rfl
    obtain ⟨l, Q, hE, _, rfl⟩ := hst
    apply hn
    rw [swap_pruned s hs l Q hE, cand, Again, hd, swap_big s hs, swap_big _ (by linarith), div_div_cancel_left' hs.ne']
    norm_num
  | more d d' e hst _ _ ih =>
    rintro s hs rfl
    obtain ⟨l, Q, hE, _, rfl⟩ := hst
    exact ih (s / 2) (by linarith) (by rw [swap_pruned s hs l Q hE, cand])

/-- In exact arithmetic a call on the matrix with zeros on the diagonal and ones off it never ends. -/
theorem C164_endless_refuted (o : Out 1) : ¬ Runs (swap 1) o := by
  rintro (⟨h, _⟩ | ⟨_, d, hd, _⟩)
  · have := (C163_sound_any _ _ _ (is_of (swap 1)) 's' h (by omega)).2
    simp [swap] at this
  · have e : (fun i => |swap 1 i i|) = fun _ => (0 : ℝ) := by ext i; fin_cases i <;> simp [swap]
    rw [e] at hd
    exact swap_loop _ _ hd 1 one_pos rfl

end Apop.Linalg
