import Verif.Fisher.F4
import Verif.Fisher.F4Peel
import Verif.Fisher.F3Bound
import Mathlib.Order.Fin.Basic
import Mathlib.GroupTheory.Perm.Fin

/-! # f4xact's bound is valid -/

namespace Apop.Fisher.F3
open Apop Apop.Fisher Finset

/-- `q` is the sum of the logs of the factorials of the cells of a table with row totals
`r` and column totals `c`, in whatever order. -/
def Tab (r c : List ℕ) (q : ℝ) : Prop :=
  ∃ (n m : ℕ) (T : Table n m), (List.ofFn (rowTot T)).Perm r ∧ (List.ofFn (colTot T)).Perm c ∧ cellSum T = q

theorem Tab.perm {r c r' c' : List ℕ} {q : ℝ} (h : Tab r c q) (hr : r.Perm r') (hc : c.Perm c') : Tab r' c' q := by
  obtain ⟨n, m, T, h1, h2, h3⟩ := h
  exact ⟨n, m, T, h1.trans hr, h2.trans hc, h3⟩

theorem Tab.flip {r c : List ℕ} {q : ℝ} (h : Tab r c q) : Tab c r q := by
  obtain ⟨n, m, T, h1, h2, h3⟩ := h
  exact ⟨m, n, flip' T, h2, h1, by rw [cellSum_flip]; exact h3⟩

theorem ofFn_front {n : ℕ} (f : Fin (n + 1) → ℕ) (i : Fin (n + 1)) :
    (f i :: List.ofFn (fun k => f (i.succAbove k))).Perm (List.ofFn f) := by
  have h := Equiv.Perm.ofFn_comp_perm i.cycleRange.symm f
  rw [List.ofFn_succ] at h
  simp only [Function.comp, Fin.cycleRange_symm_zero, Fin.cycleRange_symm_succ] at h
  exact h

/-- Row `i` and column `o` first. -/
def fronted {n m : ℕ} (T : Table (n + 1) (m + 1)) (i : Fin (n + 1)) (o : Fin (m + 1)) : Table (n + 1) (m + 1) :=
  fun k l => T (i.cycleRange.symm k) (o.cycleRange.symm l)

theorem fronted_zero {n m : ℕ} (T : Table (n + 1) (m + 1)) (i : Fin (n + 1)) (o : Fin (m + 1)) : fronted T i o 0 0 = T i o := by
  simp [fronted, Fin.cycleRange_symm_zero]

theorem fronted_rowTot {n m : ℕ} (T : Table (n + 1) (m + 1)) (i : Fin (n + 1)) (o : Fin (m + 1)) :
    rowTot (fronted T i o) = rowTot T ∘ i.cycleRange.symm := by
  funext k; unfold rowTot fronted; exact Equiv.sum_comp o.cycleRange.symm (fun l => T (i.cycleRange.symm k) l)

theorem fronted_colTot {n m : ℕ} (T : Table (n + 1) (m + 1)) (i : Fin (n + 1)) (o : Fin (m + 1)) :
    colTot (fronted T i o) = colTot T ∘ o.cycleRange.symm := by
  funext k; unfold colTot fronted; exact Equiv.sum_comp i.cycleRange.symm (fun l => T l (o.cycleRange.symm k))

theorem fronted_cellSum {n m : ℕ} (T : Table (n + 1) (m + 1)) (i : Fin (n + 1)) (o : Fin (m + 1)) :
    cellSum (fronted T i o) = cellSum T := by
  unfold cellSum fronted
  rw [← Equiv.sum_comp i.cycleRange.symm (fun k => ∑ l, lf (T k l))]
  exact sum_congr rfl (fun k _ => Equiv.sum_comp o.cycleRange.symm (fun l => lf (T (i.cycleRange.symm k) l)))

/-- Without the first column. -/
def dropCol {n m : ℕ} (U : Table n (m + 1)) : Table n m := fun i j => U i j.succ

theorem rowTot_dropCol {n m : ℕ} (U : Table n (m + 1)) (i : Fin n) : rowTot U i = U i 0 + rowTot (dropCol U) i := by
  unfold rowTot; rw [Fin.sum_univ_succ]; rfl

theorem colTot_dropCol {n m : ℕ} (U : Table n (m + 1)) (j : Fin m) : colTot (dropCol U) j = colTot U j.succ := rfl

theorem col_zero {n m : ℕ} {U : Table (n + 1) m} {j : Fin m} (h : U 0 j = colTot U j) (k : Fin n) : U k.succ j = 0 := by
  have := colTot_succ U j
  have h0 : colTot (tailT U) j = 0 := by omega
  unfold colTot at h0
  rw [sum_eq_zero_iff] at h0
  exact h0 k (mem_univ _)

theorem cellSum_dropCol {n m : ℕ} {U : Table (n + 1) (m + 1)} (h : U 0 0 = colTot U 0) :
    cellSum U = lf (U 0 0) + cellSum (dropCol U) := by
  have h0 := col_zero h
  have : cellSum U = ∑ i, lf (U i 0) + cellSum (dropCol U) := by
    unfold cellSum
    rw [← sum_add_distrib]
    exact sum_congr rfl (fun i _ => by rw [Fin.sum_univ_succ]; rfl)
  rw [this, Fin.sum_univ_succ, sum_eq_zero (s := univ) (fun k _ => by rw [h0 k, lf_zero]), add_zero]

/-- The first column is all in the first row, which has more. -/
theorem peel_gt {n m : ℕ} {U : Table (n + 1) (m + 1)} (h : U 0 0 = colTot U 0) :
    Tab ((rowTot U 0 - colTot U 0) :: List.ofFn (fun k : Fin n => rowTot U k.succ)) (List.ofFn (fun l : Fin m => colTot U l.succ))
      (cellSum U - lf (colTot U 0)) := by
  refine ⟨n + 1, m, dropCol U, ?_, List.Perm.refl _, ?_⟩
  · rw [List.ofFn_succ]
    have h0 := rowTot_dropCol U 0
    have e0 : rowTot (dropCol U) 0 = rowTot U 0 - colTot U 0 := by omega
    have e1 : (fun k : Fin n => rowTot (dropCol U) k.succ) = fun k : Fin n => rowTot U k.succ := by
      funext k
      have := rowTot_dropCol U k.succ
      rw [col_zero h k] at this; omega
    rw [e0, e1]
  · rw [cellSum_dropCol h, h]; ring

/-- The first column is all in the first row, which has no more. -/
theorem peel_eq {n m : ℕ} {U : Table (n + 1) (m + 1)} (h : U 0 0 = colTot U 0) (he : rowTot U 0 = colTot U 0) :
    Tab (List.ofFn (fun k : Fin n => rowTot U k.succ)) (List.ofFn (fun l : Fin m => colTot U l.succ)) (cellSum U - lf (colTot U 0)) := by
  have hz : ∀ l : Fin m, U 0 l.succ = 0 := col_zero (U := flip' U) (j := 0) (by show U 0 0 = rowTot U 0; rw [he, h])
  refine ⟨n, m, tailT (dropCol U), ?_, ?_, ?_⟩
  · have : rowTot (tailT (dropCol U)) = fun k : Fin n => rowTot U k.succ := by
      funext k
      have := rowTot_dropCol U k.succ
      rw [col_zero h k] at this
      rw [rowTot_tail]; omega
    rw [this]
  · have : colTot (tailT (dropCol U)) = fun l : Fin m => colTot U l.succ := by
      funext l
      have := colTot_succ (dropCol U) l
      rw [colTot_dropCol] at this
      have h2 : dropCol U 0 l = 0 := hz l
      omega
    rw [this]
  · rw [cellSum_dropCol h, cellSum_succ (dropCol U), sum_eq_zero (s := univ) (fun l _ => by show lf (U 0 l.succ) = 0; rw [hz l, lf_zero]), h]; ring

/-- What is left, when all of row total `x` or of column total `z` is in one cell. -/
def Rest (x z : ℕ) (r c : List ℕ) (q : ℝ) : Prop :=
  if x = z then Tab r c q else if z < x then Tab ((x - z) :: r) c q else Tab r ((z - x) :: c) q

theorem Rest.perm {x z : ℕ} {r c r' c' : List ℕ} {q : ℝ} (h : Rest x z r c q) (hr : r.Perm r') (hc : c.Perm c') : Rest x z r' c' q := by
  unfold Rest at *
  split at h
  · rename_i e; rw [if_pos e]; exact h.perm hr hc
  · rename_i e; rw [if_neg e]
    split at h
    · rename_i e2; rw [if_pos e2]; exact h.perm (hr.cons _) hc
    · rename_i e2; rw [if_neg e2]; exact h.perm hr (hc.cons _)

theorem Rest.flip {x z : ℕ} {r c : List ℕ} {q : ℝ} (h : Rest x z r c q) : Rest z x c r q := by
  unfold Rest at *
  by_cases e : x = z
  · rw [if_pos e] at h; rw [if_pos e.symm]; exact h.flip
  · rw [if_neg e] at h; rw [if_neg (Ne.symm e)]
    by_cases e2 : z < x
    · rw [if_pos e2] at h; rw [if_neg (by omega)]; exact h.flip
    · rw [if_neg e2] at h; rw [if_pos (by omega)]; exact h.flip

theorem peel_zero {n m : ℕ} {U : Table (n + 1) (m + 1)} (h : U 0 0 = min (rowTot U 0) (colTot U 0)) :
    Rest (rowTot U 0) (colTot U 0) (List.ofFn (fun k : Fin n => rowTot U k.succ)) (List.ofFn (fun l : Fin m => colTot U l.succ))
      (cellSum U - lf (min (rowTot U 0) (colTot U 0))) := by
  unfold Rest
  split
  · rename_i e
    rw [e, Nat.min_self] at h ⊢
    exact peel_eq h e
  · split
    · rename_i e e2
      rw [Nat.min_eq_right e2.le] at h ⊢
      exact peel_gt h
    · rename_i e e2
      rw [Nat.min_eq_left (by omega)] at h ⊢
      have := peel_gt (U := flip' U) h
      rw [cellSum_flip] at this
      exact this.flip

theorem peel_rest {n m : ℕ} {T : Table n m} {i : Fin n} {o : Fin m} (h : T i o = min (rowTot T i) (colTot T o)) {r c : List ℕ}
    (hr : (List.ofFn (rowTot T)).Perm (rowTot T i :: r)) (hc : (List.ofFn (colTot T)).Perm (colTot T o :: c)) :
    Rest (rowTot T i) (colTot T o) r c (cellSum T - lf (min (rowTot T i) (colTot T o))) := by
  match n, m, T, i, o with
  | 0, _, _, i, _ => exact i.elim0
  | _, 0, _, _, o => exact o.elim0
  | n + 1, m + 1, T, i, o =>
    have h0 := peel_zero (U := fronted T i o) (by
      rw [fronted_zero, fronted_rowTot, fronted_colTot]
      simp only [Function.comp, Fin.cycleRange_symm_zero]; exact h)
    rw [fronted_cellSum, fronted_rowTot, fronted_colTot] at h0
    simp only [Function.comp, Fin.cycleRange_symm_zero, Fin.cycleRange_symm_succ] at h0
    refine h0.perm ?_ ?_
    · exact ((ofFn_front (rowTot T) i).trans hr).cons_inv
    · exact ((ofFn_front (colTot T) o).trans hc).cons_inv

/-- If `z` is the largest column total, then there is a row total `x` such that it is
best to put as much as possible in their cell. -/
theorem tab_peelJ {r c : List ℕ} {z : ℕ} {q : ℝ} (h : Tab r (z :: c) q) (hr : r ≠ []) (hz : ∀ y ∈ c, y ≤ z) :
    ∃ x ∈ r, ∃ q', Rest x z (r.erase x) c q' ∧ q ≤ lf (min x z) + q' := by
  obtain ⟨n, m, Y, h1, h2, rfl⟩ := h
  have hn : 0 < n := by
    rcases Nat.eq_zero_or_pos n with rfl | hn
    · have h1' := h1.length_eq
      simp only [List.length_ofFn] at h1'
      exact absurd (List.eq_nil_of_length_eq_zero h1'.symm) hr
    · exact hn
  have hmem : z ∈ List.ofFn (colTot Y) := h2.mem_iff.mpr (by simp)
  rw [List.mem_ofFn] at hmem
  obtain ⟨o, ho⟩ := hmem
  have hall : ∀ j, colTot Y j ≤ z := by
    intro j
    have : colTot Y j ∈ z :: c := h2.mem_iff.mp (List.mem_ofFn.mpr ⟨j, rfl⟩)
    rcases List.mem_cons.mp this with e | e
    · exact e.le
    · exact hz _ e
  obtain ⟨T, hTr, hTc, hs, i, hi⟩ := peelJ Y (o := o) ⟨0, hn⟩ (by rw [ho]; exact hall)
  have hx : rowTot T i ∈ r := h1.mem_iff.mp (by rw [← hTr]; exact List.mem_ofFn.mpr ⟨i, rfl⟩)
  refine ⟨rowTot T i, hx, cellSum T - lf (min (rowTot T i) z), ?_, ?_⟩
  · have := peel_rest hi (r := r.erase (rowTot T i)) (c := c) (by rw [hTr]; rw [hTr] at hx; exact h1.trans (List.perm_cons_erase hx))
      (by rw [hTc, ho]; exact h2)
    rw [hTc, ho] at this
    exact this
  · linarith

theorem ofFn_others {n : ℕ} {f : Fin n → ℕ} {R i : Fin n} (h : i ≠ R) {z : ℕ} {l : List ℕ} (hz : f R = z) (hp : (List.ofFn f).Perm (z :: l)) :
    f i ∈ l := by
  match n, f, R, i with
  | 0, _, R, _ => exact R.elim0
  | n + 1, f, R, i =>
    rw [← hz] at hp
    have := ((ofFn_front f R).trans hp).cons_inv
    obtain ⟨k, hk⟩ := Fin.exists_succAbove_eq h
    exact this.mem_iff.mp (List.mem_ofFn.mpr ⟨k, by rw [hk]⟩)

/-- If `z` is at least every row total, then the same holds for a row total other than a
smallest one, `w`. -/
theorem tab_peelK {r c : List ℕ} {z w : ℕ} {q : ℝ} (h : Tab (w :: r) (z :: c) q) (hr : r ≠ []) (hrow : ∀ x ∈ w :: r, x ≤ z)
    (hw : ∀ x ∈ r, w ≤ x) :
    ∃ x ∈ r, ∃ q', Rest x z ((w :: r).erase x) c q' ∧ q ≤ lf (min x z) + q' := by
  obtain ⟨n, m, Y, h1, h2, rfl⟩ := h
  have hmem : z ∈ List.ofFn (colTot Y) := h2.mem_iff.mpr (by simp)
  rw [List.mem_ofFn] at hmem
  obtain ⟨o, ho⟩ := hmem
  have hmem : w ∈ List.ofFn (rowTot Y) := h1.mem_iff.mpr (by simp)
  rw [List.mem_ofFn] at hmem
  obtain ⟨R, hR⟩ := hmem
  have hall : ∀ i, rowTot Y i ∈ w :: r := fun i => h1.mem_iff.mp (List.mem_ofFn.mpr ⟨i, rfl⟩)
  have hn : 2 ≤ n := by
    have h1' := h1.length_eq
    simp only [List.length_ofFn, List.length_cons] at h1'
    have := List.length_pos_of_ne_nil hr
    omega
  have hi0 : ∃ i0, i0 ≠ R := by
    by_cases e : R = ⟨0, by omega⟩
    · exact ⟨⟨1, by omega⟩, by rw [e]; simp⟩
    · exact ⟨_, Ne.symm e⟩
  obtain ⟨i0, hi0⟩ := hi0
  obtain ⟨T, hTr, hTc, hs, i, hiR, hi⟩ := peelK Y (o := o) hi0 (by rw [ho]; exact fun i => hrow _ (hall i)) (by
    intro i
    rw [hR]
    rcases List.mem_cons.mp (hall i) with e | e
    · exact e.ge
    · exact hw _ e)
  have hx : rowTot T i ∈ r := by rw [hTr]; exact ofFn_others hiR hR h1
  refine ⟨rowTot T i, hx, cellSum T - lf (min (rowTot T i) z), ?_, ?_⟩
  · have := peel_rest hi (r := (w :: r).erase (rowTot T i)) (c := c)
      (by rw [hTr]; rw [hTr] at hx; exact h1.trans (List.perm_cons_erase (List.mem_cons_of_mem _ hx))) (by rw [hTc, ho]; exact h2)
    rw [hTc, ho] at this
    exact this
  · linarith

end Apop.Fisher.F3
