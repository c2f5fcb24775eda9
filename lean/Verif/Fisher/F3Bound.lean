import Verif.Fisher.F3DP

/-! # f3xact's result is at least the length of every path -/

namespace Apop.Fisher.F3
open Apop Apop.Fisher Finset

theorem neg_inv {r : Res ℝ} {v : ℝ} (h : neg r = .ok v) : ∃ w, r = .ok w ∧ v = -w := by
  cases r with
  | ub => cases h
  | ok w => simp only [neg, Net.ok.injEq] at h; exact ⟨w, rfl, h.symm⟩

theorem negN_inv {r : Net ℝ} {v : ℝ} (h : negN r = .ok v) : ∃ w, r = .ok w ∧ v = -w := by
  cases r with
  | ub => cases h
  | err => cases h
  | ok w => simp only [negN, Net.ok.injEq] at h; exact ⟨w, rfl, h.symm⟩

theorem sums_eq {r c : ℕ} (T : Table r c) : (rowsZ T).sum = (colsZ T).sum := by
  rw [rowsZ_sum, ← rowsZ_flip, rowsZ_sum, sum_margins]; rfl

theorem large_spec {fact : Fact} (hf : FactOK fact) {r c : ℕ} {T : Table r c} (hT : Exch T) (hr : 2 ≤ r) (hc : 2 ≤ c)
    (hrs : (rowsZ T).Pairwise (· ≤ ·)) (hcs : (colsZ T).Pairwise (· ≤ ·)) {v : ℝ}
    (h : large fact (rowsZ T).sum (rowsZ T) (colsZ T) = .ok v) : -v ≤ cellSum T := by
  unfold large at h
  split at h
  · cases h
  · rename_i w hw
    simp only [Net.ok.injEq] at h
    have := optimal_spec hf hw
    linarith
  · split at h
    · obtain ⟨w, hw, rfl⟩ := negN_inv h
      have := dp_spec hf hT hr (by omega) hcs hw
      linarith
    · obtain ⟨w, hw, rfl⟩ := negN_inv h
      rw [sums_eq, ← rowsZ_flip, ← colsZ_flip] at hw
      have := dp_spec hf hT.flip hc (by omega) (by rw [colsZ_flip]; exact hrs) hw
      rw [cellSum_flip] at this
      linarith

theorem one_row {fact : Fact} (hf : FactOK fact) {c : ℕ} {T : Table 1 c} {w : ℝ} (h : sumFact fact (colsZ T) = .ok w) :
    w = cellSum T := by
  have e2 : colsZ T = (List.ofFn (fun j => T 0 j)).map (fun x : ℕ => (x : ℤ)) := by
    unfold colsZ
    rw [List.map_ofFn]
    congr 1
  rw [e2] at h
  rw [sumFact_spec hf h, sum_ofFn_map]
  unfold cellSum
  rw [Fin.sum_univ_one]

/-- f3xact's value for the margins of a table that no exchange improves. -/
theorem f3xact_best {fact : Fact} (hf : FactOK fact) {r c : ℕ} {T : Table r c} (hT : Exch T)
    (hrs : (rowsZ T).Pairwise (· ≤ ·)) (hcs : (colsZ T).Pairwise (· ≤ ·)) {v : ℝ}
    (h : f3xact fact (rowsZ T).sum (rowsZ T) (colsZ T) = .ok v) : -v ≤ cellSum T := by
  match r, c, T, hT, hrs, hcs, h with
  | 0, c, T, _, _, _, h =>
    have e : rowsZ T = [] := by simp [rowsZ]
    rw [e] at h
    simp only [f3xact, Net.ok.injEq] at h
    rw [← h]; simp [cellSum]
  | 1, c, T, _, _, _, h =>
    have e : rowsZ T = [(rowTot T 0 : ℤ)] := by simp [rowsZ]
    rw [e] at h
    simp only [f3xact] at h
    obtain ⟨w, hw, rfl⟩ := neg_inv h
    rw [one_row hf hw]; simp
  | r + 2, 0, T, _, _, _, h =>
    have e : colsZ T = [] := by simp [colsZ]
    rw [rowsZ_succ, rowsZ_succ, e] at h
    simp only [f3xact, Net.ok.injEq] at h
    rw [← h]; simp [cellSum]
  | r + 2, 1, T, _, _, _, h =>
    have e : colsZ T = [(colTot T 0 : ℤ)] := by simp [colsZ]
    rw [rowsZ_succ, rowsZ_succ, e] at h
    simp only [f3xact] at h
    obtain ⟨w, hw, rfl⟩ := neg_inv h
    rw [← rowsZ_succ, ← rowsZ_succ, ← colsZ_flip] at hw
    rw [one_row hf hw, cellSum_flip]; simp
  | 2, 2, T, _, _, _, h =>
    have e : rowsZ T = [(rowTot T 0 : ℤ), (rowTot T 1 : ℤ)] := by simp [rowsZ]
    have e1 : colsZ T = [(colTot T 0 : ℤ), (colTot T 1 : ℤ)] := by simp [colsZ]
    rw [e, e1] at h
    simp only [f3xact] at h
    obtain ⟨w, hw, rfl⟩ := neg_inv h
    have := two_spec hf (T := T) (w := w) (by rw [← hw]; simp)
    linarith
  | r + 3, c + 2, T, hT, hrs, hcs, h =>
    refine large_spec hf hT (by omega) (by omega) hrs hcs ?_
    have e1 : rowsZ T = (rowTot T 0 : ℤ) :: _ := rowsZ_succ T
    have e2 : colsZ T = (colTot T 0 : ℤ) :: _ := rowsZ_succ (flip' T)
    rw [e1, rowsZ_succ, rowsZ_succ, e2, rowsZ_succ] at h ⊢
    simp only [f3xact] at h
    exact h
  | r + 2, c + 3, T, hT, hrs, hcs, h =>
    refine large_spec hf hT (by omega) (by omega) hrs hcs ?_
    have e1 : rowsZ T = (rowTot T 0 : ℤ) :: _ := rowsZ_succ T
    have e2 : colsZ T = (colTot T 0 : ℤ) :: _ := rowsZ_succ (flip' T)
    rw [e1, rowsZ_succ, e2, rowsZ_succ, rowsZ_succ] at h ⊢
    simp only [f3xact] at h
    exact h

/-- f3xact's value and any table with these margins. -/
theorem f3xact_spec {fact : Fact} (hf : FactOK fact) {r c : ℕ} (T : Table r c)
    (hrs : (rowsZ T).Pairwise (· ≤ ·)) (hcs : (colsZ T).Pairwise (· ≤ ·)) {v : ℝ}
    (h : f3xact fact (rowsZ T).sum (rowsZ T) (colsZ T) = .ok v) : -v ≤ cellSum T := by
  obtain ⟨B, hB, hE, hle⟩ := exists_best (R := rowTot T) (C := colTot T) (Y := T) (mem_tables.mpr ⟨rfl, rfl⟩)
  rw [mem_tables] at hB
  have e1 : rowsZ B = rowsZ T := by unfold rowsZ; rw [hB.1]
  have e2 : colsZ B = colsZ T := by unfold colsZ; rw [hB.2]
  rw [← e1] at hrs h
  rw [← e2] at hcs h
  exact (f3xact_best hf hE hrs hcs h).trans hle

/-- The path lengths are those of tables. -/
theorem len_table {rows cols : List ℕ} (hs : rows.sum = cols.sum) {q : ℝ} (h : Len rows cols q) :
    ∃ T : Table rows.length cols.length, rowTot T = rows.get ∧ colTot T = cols.get ∧ q = (cols.map lf).sum - cellSum T := by
  have h1 : W (List.ofFn rows.get) (List.ofFn cols.get) (fun x => if x = q then 1 else 0)
      = ∑ Y ∈ tables rows.get cols.get, (fun x => if x = q then 1 else 0) (path Y) :=
    W_fin _ _ _ (by rw [← List.sum_ofFn, ← List.sum_ofFn, List.ofFn_get, List.ofFn_get]; exact hs)
  rw [List.ofFn_get, List.ofFn_get] at h1
  have h2 := Len_iff.mp h
  rw [h1] at h2
  by_contra hc
  push Not at hc
  have : ∑ Y ∈ tables rows.get cols.get, (fun x => if x = q then (1 : ℝ) else 0) (path Y) = 0 := by
    refine sum_eq_zero (fun Y hY => ?_)
    have hY' := mem_tables.mp hY
    have := hc Y hY'.1 hY'.2
    simp only []
    rw [if_neg]
    rw [path_eq hY]
    intro e
    apply this
    rw [← e]
    have : (cols.map lf).sum = ∑ j, lf (cols.get j) := by
      conv_lhs => rw [← List.ofFn_get cols]
      rw [sum_ofFn_map]
    rw [this]; rfl
  rw [this] at h2
  exact lt_irrefl _ h2

theorem map_cast_ofFn (l : List ℕ) : l.map (fun x : ℕ => (x : ℤ)) = List.ofFn (fun i => (l.get i : ℤ)) := by
  conv_lhs => rw [← List.ofFn_get l]
  rw [List.map_ofFn]; rfl

theorem cast_sorted {l : List ℕ} (h : l.Pairwise (· ≤ ·)) : (l.map (fun x : ℕ => (x : ℤ))).Pairwise (· ≤ ·) := by
  rw [List.pairwise_map]
  exact h.imp (fun h => by exact_mod_cast h)

/-- f3xact for row and column totals given as natural numbers. -/
noncomputable def f3 (fact : Fact) (rows cols : List ℕ) : Net ℝ :=
  f3xact fact (cols.sum : ℕ) (rows.map (fun x : ℕ => (x : ℤ))) (cols.map (fun x : ℕ => (x : ℤ)))

theorem f3_spec {fact : Fact} (hf : FactOK fact) {rows cols : List ℕ} (hs : rows.sum = cols.sum)
    (hr : rows.Pairwise (· ≤ ·)) (hc : cols.Pairwise (· ≤ ·)) {v q : ℝ} (h : f3 fact rows cols = .ok v) (hq : Len rows cols q) :
    q ≤ (cols.map lf).sum + v := by
  obtain ⟨T, h1, h2, rfl⟩ := len_table hs hq
  have e1 : rows.map (fun x : ℕ => (x : ℤ)) = rowsZ T := by rw [map_cast_ofFn]; unfold rowsZ; rw [h1]
  have e2 : cols.map (fun x : ℕ => (x : ℤ)) = colsZ T := by rw [map_cast_ofFn]; unfold colsZ; rw [h2]
  have e3 : ((cols.sum : ℕ) : ℤ) = (rowsZ T).sum := by
    rw [← hs, ← e1]; push_cast; rfl
  unfold f3 at h
  rw [e3, e1, e2] at h
  have := f3xact_spec hf T (by rw [← e1]; exact cast_sorted hr) (by rw [← e2]; exact cast_sorted hc) h
  linarith

theorem factArr_ok (n : ℕ) : FactOK (factArr n) := by
  intro i v h
  unfold factArr at h
  split at h
  · simp only [Res.ok.injEq] at h
    rw [← h, Int.toNat_natCast, factC_eq]
  · cases h

end Apop.Fisher.F3
