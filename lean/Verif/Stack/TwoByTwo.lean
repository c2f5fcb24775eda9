import Verif.Stack.Props

/-! # C12: the documentation's function that merges four matrices -/

namespace Apop.Stack
variable {α : Type}

/-- `apop_stack_two_by_two`, the example in apop_linear_algebra.m4.c:230-237. The value of the third call is not used: `output` is changed in place, unless the call fails. -/
def twoByTwo (junk : α) (ul ur dl dr : Mat α) : Res (Option (Mat α)) := do
  let output ← matStack junk (some ul) (some ur) 'c' false
  let t ← matStack junk (some dl) (some dr) 'c' false
  let r ← matStack junk output t 'r' true
  .ok (output.map fun o => r.getD o)

/-- The element at row `i`, column `j`. -/
def entry (m : Mat α) (i j : Nat) : Option α := m.rows[i]?.bind (·[j]?)

theorem beside_wf (a b : Mat α) (ha : a.WF) (hb : b.WF) : (⟨List.zipWith (· ++ ·) a.rows b.rows, a.cols + b.cols⟩ : Mat α).WF := by
  intro r hr
  obtain ⟨i, hi, rfl⟩ := List.mem_iff_getElem.1 hr
  simp only [List.getElem_zipWith, List.length_append]
  rw [ha _ (List.getElem_mem _), hb _ (List.getElem_mem _)]

theorem entry_beside (a b : Mat α) (ha : a.WF) (h : a.size1 = b.size1) (i j : Nat) :
    entry ⟨List.zipWith (· ++ ·) a.rows b.rows, a.cols + b.cols⟩ i j = if j < a.cols then entry a i j else entry b i (j - a.cols) := by
  unfold entry
  simp only [List.getElem?_zipWith]
  have hl : a.rows.length = b.rows.length := h
  by_cases hi : i < a.rows.length
  · have hb : i < b.rows.length := by omega
    have hw : (a.rows[i]).length = a.cols := ha _ (List.getElem_mem _)
    simp only [List.getElem?_eq_getElem hi, List.getElem?_eq_getElem hb, Option.bind_some]
    rw [List.getElem?_append, hw]
  · have hb : ¬i < b.rows.length := by omega
    simp [List.getElem?_eq_none (Nat.le_of_not_lt hi), List.getElem?_eq_none (Nat.le_of_not_lt hb)]

theorem entry_over (a b : Mat α) (n k i j : Nat) (hk : a.rows.length = k) :
    entry ⟨a.rows ++ b.rows, n⟩ i j = if i < k then entry a i j else entry b (i - k) j := by
  unfold entry
  subst hk
  by_cases h : i < a.rows.length
  · rw [if_pos h, List.getElem?_append_left h]
  · rw [if_neg h, List.getElem?_append_right (Nat.le_of_not_lt h)]

/-- **C12, four matrices**: if the heights of the upper two agree, those of the lower two, and the widths of left and right, each element of the result is that of the matrix whose quarter it is in. -/
theorem C12_two_by_two (junk : α) (ul ur dl dr : Mat α) (h1 : ul.WF) (h2 : ur.WF) (h3 : dl.WF) (h4 : dr.WF)
    (hu : ul.size1 = ur.size1) (hd : dl.size1 = dr.size1) (hl : ul.cols = dl.cols) (hr : ur.cols = dr.cols) :
    ∃ m, twoByTwo junk ul ur dl dr = .ok (some m) ∧ m.WF ∧ m.size1 = ul.size1 + dl.size1 ∧ m.cols = ul.cols + ur.cols ∧
      ∀ i j, entry m i j = if i < ul.size1 then (if j < ul.cols then entry ul i j else entry ur i (j - ul.cols))
        else (if j < ul.cols then entry dl (i - ul.size1) j else entry dr (i - ul.size1) (j - ul.cols)) := by
  have wu := beside_wf ul ur h1 h2
  have wd := beside_wf dl dr h3 h4
  have su : (List.zipWith (· ++ ·) ul.rows ur.rows).length = ul.size1 := by
    have : ul.rows.length = ur.rows.length := hu
    simp [Mat.size1, this]
  have sd : (List.zipWith (· ++ ·) dl.rows dr.rows).length = dl.size1 := by
    have : dl.rows.length = dr.rows.length := hd
    simp [Mat.size1, this]
  refine ⟨⟨List.zipWith (· ++ ·) ul.rows ur.rows ++ List.zipWith (· ++ ·) dl.rows dr.rows, ul.cols + ur.cols⟩, ?_, ?_, ?_, rfl, fun i j => ?_⟩
  · unfold twoByTwo
    rw [C12_matrix_stack_cols junk ul ur h1 h2, C12_matrix_stack_cols junk dl dr h3 h4, if_pos hu, if_pos hd]
    simp only [Res.bind_ok]
    rw [C12_matrix_stack_rows junk _ _ wu wd true, if_pos (by simp [hl, hr])]
    rfl
  · intro r h
    rcases List.mem_append.1 h with h | h
    · exact wu r h
    · have := wd r h
      simp only at this ⊢
      rw [this, hl, hr]
  · simp only [Mat.size1, List.length_append]
    rw [su, sd]
    rfl
  · have e := entry_over (⟨List.zipWith (· ++ ·) ul.rows ur.rows, ul.cols + ur.cols⟩ : Mat α) ⟨List.zipWith (· ++ ·) dl.rows dr.rows, dl.cols + dr.cols⟩ (ul.cols + ur.cols) ul.size1 i j su
    rw [e, entry_beside ul ur h1 hu, entry_beside dl dr h3 hd, ← hl]

/-- If the widths don't agree, the lower two are left out: what is given back is the upper two, without an error. -/
theorem C12_two_by_two_refuted (junk : α) (ul ur dl dr : Mat α) (h1 : ul.WF) (h2 : ur.WF) (h3 : dl.WF) (h4 : dr.WF)
    (hu : ul.size1 = ur.size1) (hd : dl.size1 = dr.size1) (hw : ul.cols + ur.cols ≠ dl.cols + dr.cols) :
    twoByTwo junk ul ur dl dr = matStack junk (some ul) (some ur) 'c' false := by
  unfold twoByTwo
  rw [C12_matrix_stack_cols junk ul ur h1 h2, C12_matrix_stack_cols junk dl dr h3 h4, if_pos hu, if_pos hd]
  simp only [Res.bind_ok]
  rw [C12_matrix_stack_rows junk _ _ (beside_wf ul ur h1 h2) (beside_wf dl dr h3 h4) true, if_neg hw]
  rfl

example : twoByTwo 0 ⟨[[1, 2]], 2⟩ ⟨[[3]], 1⟩ ⟨[[4, 5], [6, 7]], 2⟩ ⟨[[8], [9]], 1⟩ = .ok (some ⟨[[1, 2, 3], [4, 5, 8], [6, 7, 9]], 3⟩) := by decide

end Apop.Stack
