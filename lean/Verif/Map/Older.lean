import Verif.Map.Rowwise
import Mathlib.Analysis.SpecialFunctions.Log.Base
import Mathlib.Algebra.BigOperators.Group.List.Basic

/-! # C176: the maps on vectors and matrices

`apop_vector_apply`, `apop_matrix_map`, `apop_matrix_apply`, `apop_matrix_map_all`, `apop_matrix_apply_all`, the sums of the three maps, and `apop_vector_log`, `apop_vector_log10` and `apop_vector_exp`. The two functions for all
elements of a matrix are loops over the rows with a loop over the elements in it, both parallel; every order in which the steps of these can come is one in which those of a single loop over all elements can come,
so that is the model. Sizes of zero (for which GSL up to version 1 has no vectors) are not treated differently. -/

namespace Apop.Map
open Par
variable {α : Type}

/-! ## The models -/

/-- `oldvectorloop` without output, apop_mapply.m4.c:293-301, as called by `apop_vector_apply`, lines 378-380: the function gets a pointer to one element. `none` is NULL. -/
def vectorApply (junk : α) (σ : List Nat) (f : Prog Unit α) (v : Option (List α)) : Run (Option (List α)) :=
  match v with
  | none => .done none
  | some v => do
    let c ← loop σ v.length (fun _ => f) (fun i _ => v.getD i junk)
    .done (some ((List.range v.length).map fun i => c i ()))

/-- `oldforloop` without output, apop_mapply.m4.c:264-272, as called by `apop_matrix_apply`, lines 345-348. -/
def matrixApply (junk : α) (σ : List Nat) (f : Nat → Prog Nat α) (m : Option (Mat α)) : Run (Option (Mat α)) :=
  match m with
  | none => .done none
  | some m => do
    let r ← vecMap junk σ (fun size _ => f size) 'r' m none
    .done (some r.1)

/-- The element of the `k`-th iteration. -/
def elt (junk : α) (m : Mat α) (k : Nat) : α := (m.rows.getD (k / m.cols) []).getD (k % m.cols) junk

/-- A matrix of the same size from the cells of the iterations. -/
def fromElts (m : Mat α) (c : Nat → α) : Mat α := { m with rows := (List.range m.size1).map fun i => (List.range m.cols).map fun j => c (i * m.cols + j) }

/-- `apop_matrix_map_all`, apop_mapply.m4.c:396-405: read the element, write the output's. -/
def matrixMapAll (junk : α) (σ : List Nat) (f : α → α) (m : Option (Mat α)) : Run (Option (Mat α)) :=
  match m with
  | none => .done none
  | some m => do
    let c ← loop σ (m.size1 * m.cols) (vecBody (fun x _ => f x) false) (fun k => vecCells junk [elt junk m k] 0)
    .done (some (fromElts m fun k => c k .out))

/-- `apop_matrix_apply_all`, apop_mapply.m4.c:420-425. -/
def matrixApplyAll (junk : α) (σ : List Nat) (f : Prog Unit α) (m : Option (Mat α)) : Run (Option (Mat α)) :=
  match m with
  | none => .done none
  | some m => do
    let c ← loop σ (m.size1 * m.cols) (fun _ => f) (fun k _ => elt junk m k)
    .done (some (fromElts m fun k => c k ()))

/-- `apop_vector_map_sum`, apop_mapply.m4.c:435-441. -/
def vectorMapSum [Add α] [Zero α] (junk : α) (σ : List Nat) (f : α → α) (v : Option (List α)) : Run α := do
  let r ← vectorMap junk σ f v
  .done (match r with | none => 0 | some v => vsum v)

/-- `apop_matrix_map_all_sum`, apop_mapply.m4.c:449-455. -/
def matrixMapAllSum [Add α] [Zero α] (junk : α) (σ : List Nat) (f : α → α) (m : Option (Mat α)) : Run α := do
  let r ← matrixMapAll junk σ f m
  .done (match r with | none => 0 | some m => msum m)

/-- `apop_matrix_map_sum`, apop_mapply.m4.c:463-469. -/
def matrixMapSum [Add α] [Zero α] (junk : α) (σ : List Nat) (f : Nat → Prog Nat α) (m : Option (Mat α)) : Run α := do
  let r ← matrixMap junk σ f m
  .done (match r with | none => 0 | some r => vsum r.2)

/-- `*d = g(*d)`: `l10`, `ln` and `ex`, apop_linear_algebra.m4.c:147-149. -/
def assign (g : α → α) : Prog Unit α := .get () fun x => .put () (g x) (.ret x)

/-- `apop_vector_log`, apop_linear_algebra.m4.c:162-165. -/
noncomputable def vectorLog (σ : List Nat) (v : Option (List ℝ)) : Run (Option (List ℝ)) := match v with | none => .done none | some v => vectorApply 0 σ (assign Real.log) (some v)
/-- `apop_vector_log10`, apop_linear_algebra.m4.c:154-157. -/
noncomputable def vectorLog10 (σ : List Nat) (v : Option (List ℝ)) : Run (Option (List ℝ)) := match v with | none => .done none | some v => vectorApply 0 σ (assign fun x => Real.logb 10 x) (some v)
/-- `apop_vector_exp`, apop_linear_algebra.m4.c:170-173. -/
noncomputable def vectorExp (σ : List Nat) (v : Option (List ℝ)) : Run (Option (List ℝ)) := match v with | none => .done none | some v => vectorApply 0 σ (assign Real.exp) (some v)

/-! ## Specification -/

/-- What the function on a pointer makes of an element, called alone. -/
def after (f : Prog Unit α) (x : α) : α := (f.run fun _ => x).2 ()

/-! ## The theorems -/

/-- **Vector, in place.** Each element is what the function makes of it alone, under every schedule. -/
theorem C176_vector_apply {junk : α} {σ : List Nat} {f : Prog Unit α} {v : List α} {r : Option (List α)} (h : vectorApply junk σ f (some v) = .done r) : r = some (v.map (after f)) := by
  simp only [vectorApply] at h
  rw [Run.bind_eq_done] at h
  obtain ⟨c, hc, h⟩ := h
  injection h with h
  rw [loop_done hc] at h
  rw [← h]
  congr 1
  have := range_getD junk (fun x _ => after f x) v
  rw [mapIdx_const] at this
  rw [← this]
  apply List.map_congr_left
  intro i hi
  rw [List.mem_range] at hi
  simp only [if_pos hi, after]

/-- **Rows to numbers.** The new vector has the value of the function alone for each row; the rows are as the function alone leaves them. -/
theorem C176_matrix_map {junk : α} {σ : List Nat} {f : Nat → Prog Nat α} {m : Mat α} (hm : m.WF) {r : Option (Mat α × List α)} (h : matrixMap junk σ f (some m) = .done r) :
    r = some ({ m with rows := m.rows.map fun row => (alone junk (f m.cols) row).2 }, m.rows.map fun row => (alone junk (f m.cols) row).1) := by
  simp only [matrixMap, vecMap, if_pos] at h
  rw [Run.bind_eq_done] at h
  obtain ⟨⟨m', v⟩, h1, h⟩ := h
  rw [Run.bind_eq_done] at h1
  obtain ⟨⟨rows, out⟩, h2, h1⟩ := h1
  injection h with h
  injection h1 with h1
  simp only [Prod.mk.injEq] at h1
  have := forLoop_done hm h2
  simp only [Prod.mk.injEq] at this
  rw [← h, ← h1.1, ← h1.2, this.1, this.2]
  simp [Mat.size1, mapIdx_const]

/-- **Rows, in place.** -/
theorem C176_matrix_apply {junk : α} {σ : List Nat} {f : Nat → Prog Nat α} {m : Mat α} (hm : m.WF) {r : Option (Mat α)} (h : matrixApply junk σ f (some m) = .done r) :
    r = some { m with rows := m.rows.map fun row => (alone junk (f m.cols) row).2 } := by
  simp only [matrixApply, vecMap, if_pos] at h
  rw [Run.bind_eq_done] at h
  obtain ⟨⟨m', v⟩, h1, h⟩ := h
  rw [Run.bind_eq_done] at h1
  obtain ⟨⟨rows, out⟩, h2, h1⟩ := h1
  injection h with h
  injection h1 with h1
  simp only [Prod.mk.injEq] at h1
  have := forLoop_done hm h2
  simp only [Prod.mk.injEq] at this
  rw [← h, ← h1.1, this.1]
  simp [mapIdx_const]

theorem fromElts_elt {junk : α} {m : Mat α} (hm : m.WF) (g : α → α) (c : Nat → α) (hc : ∀ k < m.size1 * m.cols, c k = g (elt junk m k)) :
    fromElts m c = { m with rows := m.rows.map fun row => row.map g } := by
  unfold fromElts
  congr 1
  apply List.ext_getElem
  · simp [Mat.size1]
  · intro i h1 h2
    have hi : i < m.rows.length := by simpa using h2
    have hl : m.rows[i].length = m.cols := hm _ (List.getElem_mem hi)
    simp only [List.getElem_map, List.getElem_range]
    apply List.ext_getElem
    · simp [hl]
    · intro j h3 h4
      have hj : j < m.cols := by simpa using h3
      have hlt : i * m.cols + j < m.size1 * m.cols := by
        have : (i + 1) * m.cols ≤ m.size1 * m.cols := Nat.mul_le_mul_right _ hi
        rw [Nat.add_mul, Nat.one_mul] at this
        omega
      simp only [List.getElem_map, List.getElem_range]
      rw [hc _ hlt, elt, show (i * m.cols + j) / m.cols = i by rw [Nat.mul_comm, Nat.mul_add_div (by omega), Nat.div_eq_of_lt hj, Nat.add_zero], show (i * m.cols + j) % m.cols = j by rw [Nat.mul_comm, Nat.mul_add_mod, Nat.mod_eq_of_lt hj]]
      have hj' : j < m.rows[i].length := by omega
      simp [List.getD_eq_getElem?_getD, List.getElem?_eq_getElem hi, List.getElem?_eq_getElem hj']

/-- **All elements, new matrix.** -/
theorem C176_matrix_map_all {junk : α} {σ : List Nat} {f : α → α} {m : Mat α} (hm : m.WF) {r : Option (Mat α)} (h : matrixMapAll junk σ f (some m) = .done r) :
    r = some { m with rows := m.rows.map fun row => row.map f } := by
  simp only [matrixMapAll] at h
  rw [Run.bind_eq_done] at h
  obtain ⟨c, hc, h⟩ := h
  injection h with h
  rw [loop_done hc] at h
  rw [← h]
  congr 1
  apply fromElts_elt (junk := junk) hm
  intro k hk
  simp [hk, vecBody, Prog.run, upd, outCell, vecCells]

/-- **All elements, in place.** -/
theorem C176_matrix_apply_all {junk : α} {σ : List Nat} {f : Prog Unit α} {m : Mat α} (hm : m.WF) {r : Option (Mat α)} (h : matrixApplyAll junk σ f (some m) = .done r) :
    r = some { m with rows := m.rows.map fun row => row.map (after f) } := by
  simp only [matrixApplyAll] at h
  rw [Run.bind_eq_done] at h
  obtain ⟨c, hc, h⟩ := h
  injection h with h
  rw [loop_done hc] at h
  rw [← h]
  congr 1
  apply fromElts_elt (junk := junk) hm
  intro k hk
  simp [hk, after]

/-- **Sums**: added in the order of the elements, row by row, whatever the schedule, so the rounding of the sum does not depend on it either (no law of addition is used). -/
theorem C176_sums [Add α] [Zero α] {junk : α} {σ : List Nat} :
    (∀ (f : α → α) (v : List α) (s : α), vectorMapSum junk σ f (some v) = .done s → s = (v.map f).foldl (· + ·) 0) ∧
    (∀ (f : Nat → Prog Nat α) (m : Mat α) (s : α), m.WF → matrixMapSum junk σ f (some m) = .done s → s = (m.rows.map fun row => (alone junk (f m.cols) row).1).foldl (· + ·) 0) ∧
    (∀ (f : α → α) (m : Mat α) (s : α), m.WF → matrixMapAllSum junk σ f (some m) = .done s → s = (m.rows.flatten.map f).foldl (· + ·) 0) := by
  refine ⟨fun f v s h => ?_, fun f m s hm h => ?_, fun f m s hm h => ?_⟩
  · simp only [vectorMapSum] at h
    rw [Run.bind_eq_done] at h
    obtain ⟨r, hr, h⟩ := h
    rw [C46_vector_map hr] at h
    injection h with h
    exact h.symm
  · simp only [matrixMapSum] at h
    rw [Run.bind_eq_done] at h
    obtain ⟨r, hr, h⟩ := h
    rw [C176_matrix_map hm hr] at h
    injection h with h
    exact h.symm
  · simp only [matrixMapAllSum] at h
    rw [Run.bind_eq_done] at h
    obtain ⟨r, hr, h⟩ := h
    rw [C176_matrix_map_all hm hr] at h
    injection h with h
    rw [← h]
    simp only [msum]
    generalize (0 : α) = z
    induction m.rows generalizing z with
    | nil => rfl
    | cons a l ih =>
      simp only [List.map_cons, List.foldl_cons, List.flatten_cons, List.map_append, List.foldl_append]
      exact ih _

/-- **Counting**: with a function that is one where a condition holds and zero elsewhere, such as `isnan`, the sums count the elements. -/
theorem C176_count {junk : ℕ} {σ : List Nat} (p : ℕ → Bool) :
    (∀ (v : List ℕ) s, vectorMapSum junk σ (fun x => if p x then 1 else 0) (some v) = .done s → s = v.countP p) ∧
    (∀ (m : Mat ℕ) s, m.WF → matrixMapAllSum junk σ (fun x => if p x then 1 else 0) (some m) = .done s → s = m.rows.flatten.countP p) := by
  have key : ∀ (l : List ℕ) z, (l.map fun x => if p x then 1 else 0).foldl (· + ·) z = z + l.countP p := by
    intro l
    induction l with
    | nil => simp
    | cons a l ih =>
      intro z
      rw [List.map_cons, List.foldl_cons, ih, List.countP_cons]
      split_ifs <;> omega
  refine ⟨fun v s h => ?_, fun m s hm h => ?_⟩
  · rw [C176_sums.1 _ _ _ h, key, Nat.zero_add]
  · rw [C176_sums.2.2 _ _ _ hm h, key, Nat.zero_add]

/-- **NULL**: no-ops, NULL, and sums of zero. -/
theorem C176_null [Add α] [Zero α] (junk : α) (σ : List Nat) (f : α → α) (g : Prog Unit α) (h : Nat → Prog Nat α) :
    vectorMap junk σ f none = .done none ∧ vectorApply junk σ g none = .done none ∧ matrixMap junk σ h none = .done none ∧ matrixApply junk σ h none = .done none ∧ matrixMapAll junk σ f none = .done none ∧
    matrixApplyAll junk σ g none = .done none ∧ vectorMapSum junk σ f none = .done 0 ∧ matrixMapSum junk σ h none = .done 0 ∧ matrixMapAllSum junk σ f none = .done 0 ∧
    vectorLog σ none = .done none ∧ vectorLog10 σ none = .done none ∧ vectorExp σ none = .done none := by
  refine ⟨rfl, rfl, rfl, rfl, rfl, rfl, rfl, rfl, rfl, rfl, rfl, rfl⟩

/-- **They end**: with a schedule that gives each element or row enough steps, on matrices of any size; so the theorems above say what is returned. -/
theorem C176_ends (junk : α) :
    (∀ (f : Prog Unit α) (v : List α) (σ : List Nat), (∀ i < v.length, ∀ x, f.steps (fun _ => x) ≤ σ.count i) → ∃ r, vectorApply junk σ f (some v) = .done r) ∧
    (∀ (f : α → α) (m : Mat α) (σ : List Nat), (∀ i < m.size1 * m.cols, 2 ≤ σ.count i) → ∃ r, matrixMapAll junk σ f (some m) = .done r) ∧
    (∀ (f : Prog Unit α) (m : Mat α) (σ : List Nat), (∀ i < m.size1 * m.cols, ∀ x, f.steps (fun _ => x) ≤ σ.count i) → ∃ r, matrixApplyAll junk σ f (some m) = .done r) ∧
    (∀ (f : Nat → Prog Nat α) (m : Mat α), ∃ (σ : List Nat) (r : Option (Mat α × List α)), matrixMap junk σ f (some m) = .done r) ∧
    (∀ (f : Nat → Prog Nat α) (m : Mat α), ∃ (σ : List Nat) (r : Option (Mat α)), matrixApply junk σ f (some m) = .done r) := by
  refine ⟨fun f v σ h => ?_, fun f m σ h => ?_, fun f m σ h => ?_, fun f m => ?_, fun f m => ?_⟩
  · simp only [vectorApply]
    rw [loop_fair fun i hi => h i hi _]
    exact ⟨_, rfl⟩
  · simp only [matrixMapAll]
    rw [loop_fair fun i hi => by simpa [vecBody, Prog.steps] using h i hi]
    exact ⟨_, rfl⟩
  · simp only [matrixApplyAll]
    rw [loop_fair fun i hi => h i hi _]
    exact ⟨_, rfl⟩
  · obtain ⟨σ, r, hr⟩ := forLoop_ends junk (fun size _ => f size) m.rows m.cols (some (List.replicate m.size1 junk)) (by rintro out ⟨⟩; simp [Mat.size1])
    refine ⟨σ, ?_⟩
    simp only [matrixMap, vecMap, if_pos]
    rw [hr]
    exact ⟨_, rfl⟩
  · obtain ⟨σ, r, hr⟩ := forLoop_ends junk (fun size _ => f size) m.rows m.cols none (by simp)
    refine ⟨σ, ?_⟩
    simp only [matrixApply, vecMap, if_pos]
    rw [hr]
    exact ⟨_, rfl⟩

/-- **Logs and exponentials**: every element replaced; and for vectors of positive numbers the exponential undoes the log, and the log of the exponential is the number. -/
theorem C176_log_exp (σ τ : List Nat) (v : List ℝ) :
    (∀ r, vectorLog σ (some v) = .done r → r = some (v.map Real.log)) ∧
    (∀ r, vectorLog10 σ (some v) = .done r → r = some (v.map fun x => Real.log x / Real.log 10)) ∧
    (∀ r, vectorExp σ (some v) = .done r → r = some (v.map Real.exp)) ∧
    ((∀ x ∈ v, 0 < x) → ∀ r r', vectorLog σ (some v) = .done r → vectorExp τ r = .done r' → r' = some v) ∧
    (∀ r r', vectorExp σ (some v) = .done r → vectorLog τ r = .done r' → r' = some v) := by
  have a : ∀ (g : ℝ → ℝ), after (assign g) = g := by
    intro g; funext x; simp [after, assign, Prog.run, upd]
  have l : ∀ (v : List ℝ) σ r, vectorLog σ (some v) = .done r → r = some (v.map Real.log) := by
    intro v σ r h; rw [C176_vector_apply h, a]
  have e : ∀ (v : List ℝ) σ r, vectorExp σ (some v) = .done r → r = some (v.map Real.exp) := by
    intro v σ r h; rw [C176_vector_apply h, a]
  refine ⟨l v σ, fun r h => ?_, e v σ, fun hp r r' h h' => ?_, fun r r' h h' => ?_⟩
  · rw [C176_vector_apply h, a]; rfl
  · rw [l v σ r h] at h'
    rw [e _ τ r' h', List.map_map]
    congr 1
    conv_rhs => rw [← List.map_id v]
    exact List.map_congr_left fun x hx => Real.exp_log (hp x hx)
  · rw [e v σ r h] at h'
    rw [l _ τ r' h', List.map_map]
    congr 1
    conv_rhs => rw [← List.map_id v]
    exact List.map_congr_left fun x hx => Real.log_exp x

/-! ## Not vacuous -/

/-- Three rows by two, all elements times ten, the schedule going backwards. -/
example : matrixMapAll 0 [5, 4, 3, 2, 1, 0, 0, 1, 2, 3, 4, 5] (fun x => x * 10) (some ⟨[[1, 2], [3, 4], [5, 6]], 2⟩) = .done (some ⟨[[10, 20], [30, 40], [50, 60]], 2⟩) := by decide +kernel

/-- Rows swapped in place, the two interleaved, and their first elements returned. -/
example : matrixMap 0 [0, 1, 1, 0, 0, 1, 1, 0, 0, 1] (fun _ => .get 0 fun x => .get 1 fun y => .put 0 y (.put 1 x (.ret x))) (some ⟨[[1, 2], [3, 4]], 2⟩) = .done (some (⟨[[2, 1], [4, 3]], 2⟩, [1, 3])) := by decide +kernel

example : vectorApply 0 [1, 0, 0, 1] (assign fun x => x + 7) (some [1, 2]) = .done (some [8, 9]) := by decide +kernel

example : ∃ r, vectorLog [0, 0, 1, 1] (some [1, 2]) = .done r := (C176_ends 0).1 _ _ _ (by
  intro i hi x
  have : i = 0 ∨ i = 1 := by simp at hi; omega
  rcases this with rfl | rfl <;> simp [assign, Prog.steps])

end Apop.Map
