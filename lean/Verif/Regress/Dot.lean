import Verif.Name.Props
import Mathlib.Data.Matrix.Mul
import Mathlib.Data.Real.Basic
import Mathlib.Algebra.BigOperators.Fin

/-! # C85: dot products -/

namespace Apop.Dot
open Matrix

/-- A `gsl_matrix`: its sizes and its elements (those outside the sizes mean nothing). -/
structure NM where
  r : ℕ
  c : ℕ
  a : ℕ → ℕ → ℝ

/-- A `gsl_vector`. -/
structure NV where
  n : ℕ
  a : ℕ → ℝ

/-- The parts of an `apop_data` set used here. -/
structure D where
  vec : Option NV
  mat : Option NM
  names : Option Names

/-- The output: vector, matrix, names, and the error mark. -/
structure Out where
  vec : Option NV := none
  mat : Option NM := none
  names : Names := .alloc
  err : Option Char := none

/-! ## The models -/

/-- `gsl_blas_dgemm` (GSL) with alpha one, beta zero: op(A) op(B) into C of the given sizes; `none` if the sizes don't fit. -/
noncomputable def dgemm (lt rt : Bool) (l m : NM) (outR outC : ℕ) : Option NM :=
  if (if lt then l.r else l.c) = (if rt then m.c else m.r) ∧ (if lt then l.c else l.r) = outR ∧ (if rt then m.r else m.c) = outC then
    some ⟨outR, outC, fun i j => ∑ k ∈ Finset.range (if lt then l.r else l.c), (if lt then l.a k i else l.a i k) * (if rt then m.a j k else m.a k j)⟩
  else none

/-- `gsl_blas_dgemv` (GSL): op(A) x into y of the given size. -/
noncomputable def dgemv (t : Bool) (m : NM) (x : NV) (outN : ℕ) : Option NV :=
  if (if t then m.r else m.c) = x.n ∧ (if t then m.c else m.r) = outN then
    some ⟨outN, fun i => ∑ k ∈ Finset.range x.n, (if t then m.a k i else m.a i k) * x.a k⟩
  else none

/-- `gsl_blas_ddot` (GSL). -/
noncomputable def ddot (x y : NV) : Option ℝ := if x.n = y.n then some (∑ k ∈ Finset.range x.n, x.a k * y.a k) else none

/-- `dot_for_apop_dot`, apop_linear_algebra.m4.c:319-327; `t` is `CblasTrans`. -/
noncomputable def dotFor (m : NM) (v : NV) (t : Bool) : Option NV := dgemv t m v (if t then m.c else m.r)

/-- Which part of a data set is used, apop_linear_algebra.m4.c:393-412: the matrix unless there is none or the vector is asked for. -/
inductive Part where
  | m (a : NM)
  | v (a : NV)

/-- As above; `none` for a NULL return. -/
def part (d : D) (form : Char) : Option Part :=
  match d.mat, d.vec with
  | some a, v => if form ≠ 'v' then some (.m a) else v.map .v
  | none, v => v.map .v

/-- `CblasTrans`? apop_linear_algebra.m4.c:420-423. -/
def trans (form : Char) : Bool := form == 'p' || form == 't' || form == '\x01'

/-- The names of a product of which the left (right) part is a matrix, lines 457-465. -/
def dotNames (d1 d2 : D) (lm rm lt rt : Bool) : Names :=
  let n1 := if lm then (match d1.names with
    | none => Names.alloc
    | some _ => if lt then Names.alloc.stack d1.names (some 'r') (some 'c') else Names.alloc.stack d1.names (some 'r') none) else Names.alloc
  if rm then (match d2.names with
    | none => n1
    | some _ => if rt then n1.stack d2.names (some 'c') (some 'r') else n1.stack d2.names (some 'c') none) else n1

/-- `apop_dot`, apop_linear_algebra.m4.c:378-470; the form `0` is the default. -/
noncomputable def dot (d1 d2 : D) (form1 form2 : Char) : Option Out :=
  match part d1 form1, part d2 form2 with
  | none, _ => none
  | _, none => none
  | some (.m l), some (.m m) => some <|
    if (if trans form1 then l.r else l.c) ≠ (if trans form2 then m.c else m.r) then { err := some 'd' }
    else match dgemm (trans form1) (trans form2) l m (if trans form1 then l.c else l.r) (if trans form2 then m.r else m.c) with
      | none => { err := some 'm' }
      | some o => { mat := some o, names := dotNames d1 d2 true true (trans form1) (trans form2) }
  | some (.v l), some (.m m) => some <|
    if l.n ≠ (if trans form2 then m.c else m.r) then { err := some 'd' }
    else match dotFor m l (!trans form2) with
      | none => { err := some 'm' }
      | some o => { vec := some o, names := dotNames d1 d2 false true (trans form1) (trans form2) }
  | some (.m l), some (.v m) => some <|
    if (if trans form1 then l.r else l.c) ≠ m.n then { err := some 'd' }
    else match dotFor l m (trans form1) with
      | none => { err := some 'm' }
      | some o => { vec := some o, names := dotNames d1 d2 true false (trans form1) (trans form2) }
  | some (.v l), some (.v m) => some <|
    match ddot l m with
      | none => { err := some 'm' }
      | some o => { vec := some ⟨1, fun _ => o⟩, names := dotNames d1 d2 false false (trans form1) (trans form2) }

/-! ## Specification -/

/-- The matrix of Mathlib that the elements make. -/
def NM.toM (m : NM) (r c : ℕ) : Matrix (Fin r) (Fin c) ℝ := fun i j => m.a i j

/-- The vector that the elements make. -/
def NV.toV (v : NV) (n : ℕ) : Fin n → ℝ := fun i => v.a i

/-- A matrix or its transpose. -/
def NM.op (t : Bool) (m : NM) : NM := if t then ⟨m.c, m.r, fun i j => m.a j i⟩ else m

theorem toM_op_false (m : NM) (r c : ℕ) : (m.op false).toM r c = m.toM r c := rfl
theorem toM_op_true (m : NM) (r c : ℕ) : (m.op true).toM r c = (m.toM c r)ᵀ := rfl

/-! ## Proofs -/

theorem op_r (t : Bool) (m : NM) : (m.op t).r = if t then m.c else m.r := by cases t <;> rfl
theorem op_c (t : Bool) (m : NM) : (m.op t).c = if t then m.r else m.c := by cases t <;> rfl
theorem op_a (t : Bool) (m : NM) (i j : ℕ) : (m.op t).a i j = if t then m.a j i else m.a i j := by cases t <;> rfl

/-- **C85 (matrix and matrix).** If the sizes fit, the output's matrix is the product of the two matrices, each transposed if asked for, there is no vector and no error; if they don't, only the error `d`. -/
theorem C85_matrix_matrix (d1 d2 : D) (f1 f2 : Char) (A B : NM) (h1 : part d1 f1 = some (.m A)) (h2 : part d2 f2 = some (.m B)) :
    ∃ o, dot d1 d2 f1 f2 = some o ∧
      (if (A.op (trans f1)).c = (B.op (trans f2)).r then
        o.err = none ∧ o.vec = none ∧ ∃ m, o.mat = some m ∧ m.r = (A.op (trans f1)).r ∧ m.c = (B.op (trans f2)).c ∧
          ∀ p q, m.toM p q = (A.op (trans f1)).toM p (A.op (trans f1)).c * (B.op (trans f2)).toM (A.op (trans f1)).c q
      else o.err = some 'd' ∧ o.vec = none ∧ o.mat = none) := by
  simp only [dot, h1, h2]
  refine ⟨_, rfl, ?_⟩
  rw [op_c, op_r]
  by_cases h : (if trans f1 then A.r else A.c) = (if trans f2 then B.c else B.r)
  · rw [if_pos h]
    simp only [h, ne_eq, not_true, if_false]
    have hd : dgemm (trans f1) (trans f2) A B (if trans f1 then A.c else A.r) (if trans f2 then B.r else B.c) = some ⟨if trans f1 then A.c else A.r, if trans f2 then B.r else B.c,
        fun i j => ∑ k ∈ Finset.range (if trans f1 then A.r else A.c), (if trans f1 then A.a k i else A.a i k) * (if trans f2 then B.a j k else B.a k j)⟩ := by
      rw [dgemm, if_pos ⟨h, rfl, rfl⟩]
    rw [hd]
    refine ⟨rfl, rfl, _, rfl, (op_r ..).symm, (op_c ..).symm, ?_⟩
    intro p q
    ext i j
    rw [Matrix.mul_apply]
    simp only [NM.toM, op_a]
    rw [h, Finset.sum_range]
  · rw [if_neg h]
    simp [h]

/-- **C85 (vector and matrix).** The vector is a row. -/
theorem C85_vector_matrix (d1 d2 : D) (f1 f2 : Char) (x : NV) (B : NM) (h1 : part d1 f1 = some (.v x)) (h2 : part d2 f2 = some (.m B)) :
    ∃ o, dot d1 d2 f1 f2 = some o ∧
      (if x.n = (B.op (trans f2)).r then
        o.err = none ∧ o.mat = none ∧ ∃ v, o.vec = some v ∧ v.n = (B.op (trans f2)).c ∧ ∀ q, v.toV q = x.toV x.n ᵥ* (B.op (trans f2)).toM x.n q
      else o.err = some 'd' ∧ o.vec = none ∧ o.mat = none) := by
  simp only [dot, h1, h2]
  refine ⟨_, rfl, ?_⟩
  rw [op_r, op_c]
  by_cases h : x.n = (if trans f2 then B.c else B.r)
  · rw [if_pos h, if_neg (by simpa using h)]
    have hd : dotFor B x (!trans f2) = some ⟨if trans f2 then B.r else B.c, fun i => ∑ k ∈ Finset.range x.n, (if trans f2 then B.a i k else B.a k i) * x.a k⟩ := by
      rw [dotFor, dgemv]
      cases hf : trans f2 <;> simp_all
    rw [hd]
    refine ⟨rfl, rfl, _, rfl, rfl, ?_⟩
    intro q
    funext i
    simp only [NV.toV, Matrix.vecMul, dotProduct, NM.toM, op_a]
    rw [Finset.sum_range]
    exact Finset.sum_congr rfl fun k _ => mul_comm _ _
  · rw [if_neg h]
    simp [h]

/-- **C85 (matrix and vector).** The vector is a column. -/
theorem C85_matrix_vector (d1 d2 : D) (f1 f2 : Char) (A : NM) (x : NV) (h1 : part d1 f1 = some (.m A)) (h2 : part d2 f2 = some (.v x)) :
    ∃ o, dot d1 d2 f1 f2 = some o ∧
      (if (A.op (trans f1)).c = x.n then
        o.err = none ∧ o.mat = none ∧ ∃ v, o.vec = some v ∧ v.n = (A.op (trans f1)).r ∧ ∀ p, v.toV p = (A.op (trans f1)).toM p x.n *ᵥ x.toV x.n
      else o.err = some 'd' ∧ o.vec = none ∧ o.mat = none) := by
  simp only [dot, h1, h2]
  refine ⟨_, rfl, ?_⟩
  rw [op_r, op_c]
  by_cases h : (if trans f1 then A.r else A.c) = x.n
  · rw [if_pos h, if_neg (by simpa using h)]
    have hd : dotFor A x (trans f1) = some ⟨if trans f1 then A.c else A.r, fun i => ∑ k ∈ Finset.range x.n, (if trans f1 then A.a k i else A.a i k) * x.a k⟩ := by
      rw [dotFor, dgemv, if_pos ⟨h, rfl⟩]
    rw [hd]
    refine ⟨rfl, rfl, _, rfl, rfl, ?_⟩
    intro p
    funext i
    simp only [NV.toV, Matrix.mulVec, dotProduct, NM.toM, op_a]
    rw [Finset.sum_range]
  · rw [if_neg h]
    simp [h]

/-- **C85 (vector and vector).** A vector of one element, the scalar product; vectors of different lengths give the error `m` (not the documented `d`), and no vector. -/
theorem C85_vector_vector (d1 d2 : D) (f1 f2 : Char) (x y : NV) (h1 : part d1 f1 = some (.v x)) (h2 : part d2 f2 = some (.v y)) :
    ∃ o, dot d1 d2 f1 f2 = some o ∧ o.mat = none ∧
      (if x.n = y.n then o.err = none ∧ ∃ v, o.vec = some v ∧ v.n = 1 ∧ v.a 0 = x.toV x.n ⬝ᵥ y.toV x.n else o.err = some 'm' ∧ o.vec = none) := by
  simp only [dot, h1, h2]
  refine ⟨_, rfl, ?_⟩
  by_cases h : x.n = y.n
  · rw [if_pos h, ddot, if_pos h]
    refine ⟨rfl, rfl, _, rfl, rfl, ?_⟩
    simp only [dotProduct, NV.toV]
    rw [Finset.sum_range]
  · rw [if_neg h, ddot, if_neg h]
    exact ⟨rfl, rfl, rfl⟩

/-- **C85 (which part).** The matrix is used if there is one and the vector is not asked for; with the part asked for missing there is no output. -/
theorem C85_parts (d1 d2 : D) (f1 f2 : Char) :
    (∀ A, d1.mat = some A → f1 ≠ 'v' → part d1 f1 = some (.m A)) ∧ (∀ x, d1.vec = some x → d1.mat = none ∨ f1 = 'v' → part d1 f1 = some (.v x)) ∧
    (d1.vec = none → d1.mat = none ∨ f1 = 'v' → dot d1 d2 f1 f2 = none) ∧ (d2.vec = none → d2.mat = none ∨ f2 = 'v' → dot d1 d2 f1 f2 = none) := by
  have key : ∀ (d : D) (f : Char), d.vec = none → d.mat = none ∨ f = 'v' → part d f = none := by
    intro d f hv hm
    cases hmat : d.mat with
    | none => simp [part, hmat, hv]
    | some A => rcases hm with h | h
                · rw [hmat] at h; exact absurd h (by simp)
                · simp [part, hmat, hv, h]
  refine ⟨?_, ?_, ?_, ?_⟩
  · intro A h h'; simp [part, h, h']
  · intro x h h'
    cases hmat : d1.mat with
    | none => simp [part, hmat, h]
    | some A => rcases h' with h' | h'
                · rw [hmat] at h'; exact absurd h' (by simp)
                · simp [part, hmat, h, h']
  · intro hv hm; simp [dot, key d1 f1 hv hm]
  · intro hv hm
    unfold dot
    rw [key d2 f2 hv hm]
    cases part d1 f1 with
    | none => rfl
    | some p => cases p <;> rfl

/-- **C85 (names).** A product of matrices has the left one's row names (its column names if transposed) as row names, and the right one's column names (row names if transposed) as column names. -/
theorem C85_names (d1 d2 : D) (f1 f2 : Char) (A B : NM) (n1 n2 : Names) (h1 : part d1 f1 = some (.m A)) (h2 : part d2 f2 = some (.m B)) (hfit : (A.op (trans f1)).c = (B.op (trans f2)).r)
    (hn1 : d1.names = some n1) (hn2 : d2.names = some n2) :
    ∃ o, dot d1 d2 f1 f2 = some o ∧ o.names.row = (if trans f1 then n1.col else n1.row) ∧ o.names.col = if trans f2 then n2.row else n2.col := by
  have addc : ∀ (l : List CStr) (n : Names), (n.addAll l 'c').row = n.row ∧ (n.addAll l 'c').col = n.col ++ l := by
    intro l
    induction l with
    | nil => intro n; simp [Names.addAll]
    | cons s l ih =>
      intro n
      have := ih (n.add (some s) 'c').1
      simp only [Names.addAll, List.foldl_cons] at this ⊢
      rw [this.1, this.2]
      simp [Names.add]
  have addr : ∀ (l : List CStr) (n : Names), (n.addAll l 'r').row = n.row ++ l ∧ (n.addAll l 'r').col = n.col := by
    intro l
    induction l with
    | nil => intro n; simp [Names.addAll]
    | cons s l ih =>
      intro n
      have := ih (n.add (some s) 'r').1
      simp only [Names.addAll, List.foldl_cons] at this ⊢
      rw [this.1, this.2]
      simp [Names.add]
  rw [op_c, op_r] at hfit
  refine ⟨_, by simp only [dot, h1, h2]; rfl, ?_⟩
  rw [if_neg (by simpa using hfit), dgemm, if_pos ⟨hfit, rfl, rfl⟩]
  simp only [dotNames, hn1, hn2, if_true]
  cases trans f1 <;> cases trans f2 <;> simp [Names.stack, Names.stackTypes, addc, addr, Names.alloc]

theorem mm_plain (A B : NM) (h : A.c = B.r) : ∃ o m, dot ⟨none, some A, none⟩ ⟨none, some B, none⟩ '\x00' '\x00' = some o ∧ o.mat = some m ∧ m.r = A.r ∧ m.c = B.c ∧
    ∀ p q k, k = A.c → m.toM p q = A.toM p k * B.toM k q := by
  have ht : trans '\x00' = false := by decide
  have hp : ∀ X : NM, part ⟨none, some X, none⟩ '\x00' = some (.m X) := fun X => by simp [part]
  obtain ⟨o, e1, f1⟩ := C85_matrix_matrix _ _ _ _ A B (hp A) (hp B)
  rw [ht, if_pos (show (NM.op false A).c = (NM.op false B).r from h)] at f1
  obtain ⟨-, -, m, g1, g2, g3, g4⟩ := f1
  exact ⟨o, m, e1, g1, g2, g3, fun p q k hk => by subst hk; exact g4 p q⟩

/-- **C85 (products of three).** Taking the product of the first two matrices first, or of the last two, makes no difference. -/
theorem C85_assoc (A B C : NM) (hAB : A.c = B.r) (hBC : B.c = C.r) :
    ∃ ab bc o o', dot ⟨none, some A, none⟩ ⟨none, some B, none⟩ '\x00' '\x00' = some ab ∧ dot ⟨none, some B, none⟩ ⟨none, some C, none⟩ '\x00' '\x00' = some bc ∧
      dot ⟨none, ab.mat, none⟩ ⟨none, some C, none⟩ '\x00' '\x00' = some o ∧ dot ⟨none, some A, none⟩ ⟨none, bc.mat, none⟩ '\x00' '\x00' = some o' ∧
      ∃ m m', o.mat = some m ∧ o'.mat = some m' ∧ m.r = m'.r ∧ m.c = m'.c ∧ ∀ p q, m.toM p q = m'.toM p q := by
  obtain ⟨ab, m1, e1, g1, g2, g3, g4⟩ := mm_plain A B hAB
  obtain ⟨bc, m2, e2, k1, k2, k3, k4⟩ := mm_plain B C hBC
  obtain ⟨o, m, e3, p1, p2, p3, p4⟩ := mm_plain m1 C (by rw [g3, hBC])
  obtain ⟨o', m', e4, q1, q2, q3, q4⟩ := mm_plain A m2 (by rw [k2, hAB])
  refine ⟨ab, bc, o, o', e1, e2, by rw [g1]; exact e3, by rw [k1]; exact e4, m, m', p1, q1, by rw [p2, q2, g2], by rw [p3, q3, k3], ?_⟩
  intro p q
  rw [p4 p q B.c g3.symm, q4 p q A.c rfl, g4 _ _ A.c rfl, k4 _ _ B.c rfl, Matrix.mul_assoc]

/-- A 2 by 3 matrix, transposed, times a vector of 2. -/
example : ∃ o, dot ⟨none, some ⟨2, 3, fun i j => i + j⟩, none⟩ ⟨some ⟨2, fun i => i + 1⟩, none, none⟩ 't' '\x00' = some o ∧ o.err = none ∧ ∃ v, o.vec = some v ∧ v.n = 3 := by
  obtain ⟨o, e, h⟩ := C85_matrix_vector ⟨none, some ⟨2, 3, fun i j => i + j⟩, none⟩ ⟨some ⟨2, fun i => i + 1⟩, none, none⟩ 't' '\x00' _ _ (by simp [part]; rfl) (by simp [part]; rfl)
  have ht : trans 't' = true := by decide
  simp only [ht, NM.op, if_true] at h
  exact ⟨o, e, h.1, _, h.2.2.choose_spec.1, h.2.2.choose_spec.2.1⟩

end Apop.Dot
