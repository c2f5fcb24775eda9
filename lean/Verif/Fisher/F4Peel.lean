import Verif.Fisher.F4Math

/-! # A least probable table has a cell that is the whole row or column -/

namespace Apop.Fisher.F3
open Apop Apop.Fisher Finset

theorem sum_erase_of_zero {r : ℕ} {e : Fin r → ℕ} {i : Fin r} (h : e i = 0) : ∑ k, e k = ∑ k ∈ univ.erase i, e k := by
  rw [← add_sum_erase univ e (mem_univ i), h, Nat.zero_add]

theorem sum_eq_of_zero {r : ℕ} {e : Fin r → ℕ} {S : Finset (Fin r)} (h : ∀ k ∉ S, e k = 0) : ∑ k, e k = ∑ k ∈ S, e k :=
  (sum_subset (subset_univ S) (fun k _ hk => h k hk)).symm

/-- A table with the same margins, no more probable, and with more in `(i, o)`. -/
def Better {r c : ℕ} (T : Table r c) (i : Fin r) (o : Fin c) : Prop :=
  ∃ T' : Table r c, rowTot T' = rowTot T ∧ colTot T' = colTot T ∧ cellSum T ≤ cellSum T' ∧ T i o < T' i o

theorem exists_pos_ne {c : ℕ} {f : Fin c → ℕ} {o : Fin c} (h : f o < ∑ l, f l) : ∃ j, o ≠ j ∧ 0 < f j := by
  by_contra hc
  push Not at hc
  rw [← add_sum_erase univ f (mem_univ o), sum_eq_zero (fun j hj => Nat.le_zero.mp (hc j (mem_erase.mp hj).1.symm))] at h
  omega

theorem cell_le_col {r c : ℕ} (T : Table r c) (i : Fin r) (j : Fin c) : T i j ≤ colTot T j :=
  single_le_sum (f := fun i => T i j) (fun _ _ => Nat.zero_le _) (mem_univ i)

theorem cell_le_row {r c : ℕ} (T : Table r c) (i : Fin r) (j : Fin c) : T i j ≤ rowTot T i :=
  single_le_sum (f := fun j => T i j) (fun _ _ => Nat.zero_le _) (mem_univ j)

theorem improveJ {r c : ℕ} {T : Table r c} {i : Fin r} {o : Fin c} (hcol : ∀ j, colTot T j ≤ colTot T o)
    (hmax : ∀ k, T k o ≤ T i o) (h1 : T i o < rowTot T i) (h2 : T i o < colTot T o) : Better T i o := by
  obtain ⟨j, hne, hx⟩ := exists_pos_ne (f := fun l => T i l) h1
  have hc : colTot T o = T i o + ∑ k ∈ univ.erase i, T k o := by
    unfold colTot; rw [← add_sum_erase univ _ (mem_univ i)]
  have hxc : T i j ≤ colTot T o := (cell_le_col T i j).trans (hcol j)
  by_cases hs : T i j ≤ ∑ k ∈ univ.erase i, T k o
  · have hS : (univ.erase i).Nonempty := by
      by_contra he
      rw [not_nonempty_iff_eq_empty] at he
      rw [he, sum_empty] at hs; omega
    obtain ⟨e, e1, e2, e3, k, hk, e4, e5⟩ := greedy (fun k => T k o) hS hs
    have e0 : e i = 0 := e2 i (by simp)
    have et : ∑ k, e k = T i j := by rw [sum_erase_of_zero e0, e3]
    have hp : CanPour T i o j e := ⟨hne, e0, e1, et.le⟩
    refine ⟨pour T i o j e, pour_rowTot hp, pour_colTot hp, ?_, ?_⟩
    · have := pour_cellSum hp
      rw [et, e5, Nat.sub_self, lf_zero] at this
      have hg : gain (e k) (T k o - e k) ≤ gain (T i j) (T i o) := gain_mono e4 ((Nat.sub_le _ _).trans (hmax k))
      have hg2 : gain (T i j) (T i o) = lf (T i o + T i j) - lf (T i j) - lf (T i o) := by
        unfold gain; rw [Nat.add_comm]
      linarith
    · rw [pour_cell, et]; omega
  · push Not at hs
    let e : Fin r → ℕ := fun k => if k = i then 0 else T k o
    have e0 : e i = 0 := by simp [e]
    have e1 : ∀ k ∈ univ.erase i, e k = T k o := fun k hk => by simp [e, (mem_erase.mp hk).1]
    have et : ∑ k, e k = ∑ k ∈ univ.erase i, T k o := by rw [sum_erase_of_zero e0]; exact sum_congr rfl e1
    have hp : CanPour T i o j e := by
      refine ⟨hne, e0, ?_, by rw [et]; exact hs.le⟩
      intro k
      simp only [e]
      split
      · exact Nat.zero_le _
      · exact le_refl _
    refine ⟨pour T i o j e, pour_rowTot hp, pour_colTot hp, ?_, ?_⟩
    · have := pour_cellSum hp
      rw [sum_eq_zero (s := univ.erase i) (fun k hk => by rw [e1 k hk]; simp [lf_zero]), et] at this
      have hm := lf_maj (p := T i o + ∑ k ∈ univ.erase i, T k o) (q := T i j - ∑ k ∈ univ.erase i, T k o) (s := T i o) (t := T i j)
        (by omega) (by omega) (by omega)
      linarith
    · rw [pour_cell, et]; omega

theorem improveK {r c : ℕ} {T : Table r c} {i R : Fin r} {o : Fin c} (hrow : rowTot T i ≤ colTot T o)
    (hiR : i ≠ R) (hR : rowTot T R ≤ rowTot T i)
    (hmax : ∀ k, k ≠ R → T k o ≤ T i o) (h1 : T i o < rowTot T i) : Better T i o := by
  have hX : rowTot T i = T i o + ∑ l ∈ univ.erase o, T i l := by
    unfold rowTot; rw [← add_sum_erase univ _ (mem_univ o)]
  have hb : T R o ≤ rowTot T i := (cell_le_row T R o).trans hR
  by_cases hs : ∑ l ∈ univ.erase o, T i l ≤ T R o
  · let d : Fin c → ℕ := fun l => if l = o then 0 else T i l
    have d0 : d o = 0 := by simp [d]
    have d1 : ∀ l ∈ univ.erase o, d l = T i l := fun l hl => by simp [d, (mem_erase.mp hl).1]
    have dt : ∑ l, d l = ∑ l ∈ univ.erase o, T i l := by rw [sum_erase_of_zero d0]; exact sum_congr rfl d1
    have hp : CanPour (flip' T) o i R d := by
      refine ⟨hiR, d0, ?_, by rw [dt]; exact hs⟩
      intro k
      simp only [d, flip']
      split
      · exact Nat.zero_le _
      · exact le_refl _
    refine ⟨flip' (pour (flip' T) o i R d), pour_colTot hp, pour_rowTot hp, ?_, ?_⟩
    · have := pour_cellSum hp
      rw [sum_eq_zero (s := univ.erase o) (fun k hk => by rw [d1 k hk]; simp [lf_zero, flip']), dt, cellSum_flip] at this
      rw [cellSum_flip]
      have hm := lf_maj (p := T i o + ∑ l ∈ univ.erase o, T i l) (q := T R o - ∑ l ∈ univ.erase o, T i l) (s := T i o) (t := T R o)
        (by omega) (by omega) (by omega)
      simp only [flip'] at this
      linarith
    · show _ < pour (flip' T) o i R d o i
      rw [pour_cell, dt]; simp only [flip']; omega
  · push Not at hs
    let S : Finset (Fin c) := (univ.erase o).filter (fun l => 0 < T i l)
    have hsum : ∑ l ∈ S, T i l = ∑ l ∈ univ.erase o, T i l := by
      refine sum_subset (filter_subset _ _) (fun l h1 h2 => ?_)
      by_contra h0
      exact h2 (mem_filter.mpr ⟨h1, Nat.pos_of_ne_zero h0⟩)
    have hne : S.Nonempty := by
      by_contra he
      rw [not_nonempty_iff_eq_empty] at he
      rw [he, sum_empty] at hsum; omega
    obtain ⟨d, e1, e2, e3, j, hj, e4, e5⟩ := greedy (fun l => T i l) hne (s := T R o) (by rw [hsum]; exact hs.le)
    have hjo : o ≠ j := (mem_erase.mp (mem_filter.mp hj).1).1.symm
    have hxj : 0 < T i j := (mem_filter.mp hj).2
    have d0 : d o = 0 := e2 o (by simp [S])
    have dt : ∑ l, d l = T R o := by rw [sum_eq_of_zero e2, e3]
    have hp : CanPour (flip' T) o i R d := ⟨hiR, d0, e1, dt.le⟩
    have hcs := pour_cellSum hp
    have hsub : ∑ l ∈ univ.erase o, (lf (flip' T l i - d l) + lf (d l) - lf (flip' T l i))
        = ∑ l ∈ S, (lf (T i l - d l) + lf (d l) - lf (T i l)) := by
      refine (sum_subset (filter_subset _ _) (fun l h1 h2 => ?_)).symm
      rw [e2 l h2]; simp [lf_zero]
    rw [hsub, e5, dt, cellSum_flip] at hcs
    obtain ⟨A, hA⟩ : ∃ A : Table r c, A = flip' (pour (flip' T) o i R d) := ⟨_, rfl⟩
    have hAr : rowTot A = rowTot T := by rw [hA]; exact pour_colTot hp
    have hAc : colTot A = colTot T := by rw [hA]; exact pour_rowTot hp
    have hAs : cellSum A = cellSum (pour (flip' T) o i R d) := by rw [hA]; exact cellSum_flip _
    rw [← hAs] at hcs
    have hAio : A i o = T i o + T R o := by
      rw [hA]; show pour (flip' T) o i R d o i = _; rw [pour_cell, dt]; rfl
    have hARo : A R o = 0 := by
      rw [hA]; show pour (flip' T) o i R d o R = _
      have : pour (flip' T) o i R d o R = flip' T o R - ∑ k, d k := by simp [pour, hiR.symm]
      rw [this, dt]; simp [flip']
    have hAij : A i j = T i j - d j := by
      rw [hA]; show pour (flip' T) o i R d j i = _
      have : pour (flip' T) o i R d j i = flip' T j i - d j := by simp [pour, hjo.symm]
      rw [this]; rfl
    have hAk : ∀ k, k ≠ i → k ≠ R → A k o = T k o := by
      intro k h1 h2
      rw [hA]; show pour (flip' T) o i R d o k = _
      simp [pour, h1, h2, flip']
    have hdj : d j ≤ T i j := e1 j
    -- what the others in column `o` have
    have hcol : colTot A o = A i o + A R o + ∑ k ∈ (univ.erase i).erase R, A k o := by
      unfold colTot; rw [sum_two _ hiR]
    have hleft : A i o + A i j ≤ rowTot A i := by
      unfold rowTot; rw [sum_two (f := fun l => A i l) hjo]; omega
    have hv : A i j ≤ ∑ k ∈ (univ.erase i).erase R, A k o := by
      rw [hAr] at hleft; rw [hAc] at hcol; omega
    simp only [flip'] at hcs
    rw [Nat.sub_self, lf_zero] at hcs
    have hmaj := lf_maj (p := T R o + (T i j - d j)) (q := d j) (s := T R o) (t := T i j) (by omega) (by omega) (by omega)
    have hgd : gain (d j) (T i j - d j) = lf (T i j) - lf (d j) - lf (T i j - d j) := by
      unfold gain; rw [show d j + (T i j - d j) = T i j by omega]
    have hsup := gain_nonneg (T i o) (T R o + (T i j - d j))
    have hgY : gain (T R o + (T i j - d j)) (T i o) = lf (T i o + (T R o + (T i j - d j))) - lf (T i o) - lf (T R o + (T i j - d j)) := by
      unfold gain; rw [Nat.add_comm]; ring
    by_cases hv0 : A i j = 0
    · refine ⟨A, hAr, hAc, ?_, by omega⟩
      rw [hAij] at hv0
      rw [hv0, Nat.add_zero] at hmaj hsup
      rw [hv0, lf_zero] at hgd
      unfold gain at hsup
      rw [hv0] at hcs
      linarith
    · have hS2 : ((univ.erase i).erase R).Nonempty := by
        by_contra he
        rw [not_nonempty_iff_eq_empty] at he
        rw [he, sum_empty] at hv; omega
      obtain ⟨e, f1, f2, f3, k, hk, f4, f5⟩ := greedy (fun k => A k o) hS2 hv
      have hki : k ≠ i := (mem_erase.mp (mem_erase.mp hk).2).1
      have hkR : k ≠ R := (mem_erase.mp hk).1
      have f0 : e i = 0 := f2 i (by simp)
      have ft : ∑ k, e k = A i j := by rw [sum_eq_of_zero f2, f3]
      have hq : CanPour A i o j e := ⟨hjo, f0, f1, ft.le⟩
      refine ⟨pour A i o j e, (pour_rowTot hq).trans hAr, (pour_colTot hq).trans hAc, ?_, ?_⟩
      · have hB := pour_cellSum hq
        have hsub2 : ∑ l ∈ univ.erase i, (lf (A l o - e l) + lf (e l) - lf (A l o))
            = ∑ l ∈ (univ.erase i).erase R, (lf (A l o - e l) + lf (e l) - lf (A l o)) := by
          refine (sum_subset (erase_subset _ _) (fun l _ h2 => ?_)).symm
          rw [f2 l h2]; simp [lf_zero]
        rw [hsub2, f5, ft, Nat.sub_self, lf_zero, hAio, hAij] at hB
        have hle : gain (e k) (A k o - e k) ≤ gain (T R o + (T i j - d j)) (T i o) := by
          refine gain_mono ?_ ?_
          · rw [hAij] at f4; omega
          · rw [hAk k hki hkR]; exact (Nat.sub_le _ _).trans (hmax k hkR)
        rw [Nat.add_assoc] at hB
        linarith
      · rw [pour_cell, ft]; omega

/-- Among the tables that are no more probable than `Y`, one that cannot be made
better. -/
theorem exists_ext {r c : ℕ} (Y : Table r c) (o : Fin c) {S : Finset (Fin r)} (hS : S.Nonempty) :
    ∃ T : Table r c, rowTot T = rowTot Y ∧ colTot T = colTot Y ∧ cellSum Y ≤ cellSum T ∧
      ∃ i ∈ S, (∀ k ∈ S, T k o ≤ T i o) ∧ ¬ Better T i o := by
  classical
  let P := ((tables (rowTot Y) (colTot Y)).filter (fun T => cellSum Y ≤ cellSum T)) ×ˢ S
  obtain ⟨i0, hi0⟩ := hS
  have hP : P.Nonempty := ⟨(Y, i0), mem_product.mpr ⟨mem_filter.mpr ⟨mem_tables.mpr ⟨rfl, rfl⟩, le_refl _⟩, hi0⟩⟩
  obtain ⟨⟨T, i⟩, hm, hmax⟩ := exists_max_image P (fun p => p.1 p.2 o) hP
  obtain ⟨hT, hi⟩ := mem_product.mp hm
  obtain ⟨hT1, hT2⟩ := mem_filter.mp hT
  obtain ⟨hr, hc⟩ := mem_tables.mp hT1
  refine ⟨T, hr, hc, hT2, i, hi, ?_, ?_⟩
  · intro k hk
    exact hmax (T, k) (mem_product.mpr ⟨hT, hk⟩)
  · rintro ⟨T', h1, h2, h3, h4⟩
    have := hmax (T', i) (mem_product.mpr ⟨mem_filter.mpr ⟨mem_tables.mpr ⟨h1.trans hr, h2.trans hc⟩, hT2.trans h3⟩, hi⟩)
    simp only [] at this
    omega

/-- If no column total is larger than that of `o`, then for every table there is one that
is no more probable and has a cell of column `o` that is all of its row or all of
its column. -/
theorem peelJ {r c : ℕ} (Y : Table r c) {o : Fin c} (i0 : Fin r) (hcol : ∀ j, colTot Y j ≤ colTot Y o) :
    ∃ T : Table r c, rowTot T = rowTot Y ∧ colTot T = colTot Y ∧ cellSum Y ≤ cellSum T ∧
      ∃ i, T i o = min (rowTot T i) (colTot T o) := by
  obtain ⟨T, hr, hc, hs, i, _, hmax, hB⟩ := exists_ext Y o (S := univ) ⟨i0, mem_univ _⟩
  refine ⟨T, hr, hc, hs, i, ?_⟩
  have h1 := cell_le_row T i o
  have h2 := cell_le_col T i o
  by_contra hne
  exact hB (improveJ (by rw [hc]; exact hcol) (fun k => hmax k (mem_univ _)) (by omega) (by omega))

/-- If no row total is larger than the total of column `o`, then a row of smallest total
need not be considered. -/
theorem peelK {r c : ℕ} (Y : Table r c) {o : Fin c} {R i0 : Fin r} (hi0 : i0 ≠ R) (hrow : ∀ i, rowTot Y i ≤ colTot Y o)
    (hR : ∀ i, rowTot Y R ≤ rowTot Y i) :
    ∃ T : Table r c, rowTot T = rowTot Y ∧ colTot T = colTot Y ∧ cellSum Y ≤ cellSum T ∧
      ∃ i, i ≠ R ∧ T i o = min (rowTot T i) (colTot T o) := by
  obtain ⟨T, hr, hc, hs, i, hi, hmax, hB⟩ := exists_ext Y o (S := univ.erase R) ⟨i0, by simp [hi0]⟩
  have hiR : i ≠ R := (mem_erase.mp hi).1
  refine ⟨T, hr, hc, hs, i, hiR, ?_⟩
  have h1 := cell_le_row T i o
  have h2 : rowTot T i ≤ colTot T o := by rw [hr, hc]; exact hrow i
  by_contra hne
  exact hB (improveK h2 hiR (by rw [hr]; exact hR i) (fun k hk => hmax k (by simp [hk])) (by omega))

end Apop.Fisher.F3
