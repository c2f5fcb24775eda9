import Verif.Fisher.F3Bound

/-! # C193, C194: the longest path -/

namespace Apop.Fisher.F3
open Apop Apop.Fisher Finset

/-- Is it that list? -/
def okB : Res (List (List ℤ)) → List (List ℤ) → Bool
  | .ok a, b => a == b
  | .ub, _ => false

theorem okB_eq {r : Res (List (List ℤ))} {b : List (List ℤ)} (h : okB r b = true) : r = .ok b := by
  cases r with
  | ub => cases h
  | ok a =>
    have : a = b := by simpa [okB] using h
    rw [this]

/-- **C193.** If f3xact returns a number, then minus that number is at most the sum of
the logs of the factorials of the cells of every table with these margins; whatever
is read before the array of factorials. -/
theorem C193_longest_path {fact : Fact} (hf : FactOK fact) {r c : ℕ} (Y : Table r c)
    (hR : (List.ofFn (rowTot Y)).Pairwise (· ≤ ·)) (hC : (List.ofFn (colTot Y)).Pairwise (· ≤ ·)) {v : ℝ}
    (h : f3 fact (List.ofFn (rowTot Y)) (List.ofFn (colTot Y)) = .ok v) : -(∑ i, ∑ j, lf (Y i j)) ≤ v := by
  have e1 : (List.ofFn (rowTot Y)).map (fun x : ℕ => (x : ℤ)) = rowsZ Y := by rw [List.map_ofFn]; rfl
  have e2 : (List.ofFn (colTot Y)).map (fun x : ℕ => (x : ℤ)) = colsZ Y := by rw [List.map_ofFn]; rfl
  have e3 : (((List.ofFn (colTot Y)).sum : ℕ) : ℤ) = (rowsZ Y).sum := by
    rw [List.sum_ofFn, ← sum_margins, rowsZ_sum]
  unfold f3 at h
  rw [e3, e1, e2] at h
  have := f3xact_spec hf Y (by rw [← e1]; exact cast_sorted hR) (by rw [← e2]; exact cast_sorted hC) h
  unfold cellSum at this
  linarith

theorem lp_ok {E : Env} {fact : Fact} (hf : FactOK fact) (hE : E.lp = f3 fact) (r k : ℕ) : LpOK E.lp r k := by
  intro rows cols q v hv h1 _ h3 hs _ _ _ hq
  rw [hE] at hv
  exact f3_spec hf hs h1 h3 hv hq

/-- A table for which the dynamic programming is used, and ends. -/
example : ∃ v, f3 (factArr 8) [1, 7] [1, 1, 6] = .ok v := by
  have h1 : f3 (factArr 8) [1, 7] [1, 1, 6] = large (factArr 8) 8 [1, 7] [1, 1, 6] := rfl
  have h2 : optimal (factArr 8) 7 [1, 7] [1, 1, 6] = .ok none := by
    unfold optimal
    rw [if_neg (by decide)]
    exact if_neg (by decide)
  have h3 : candidates 2 true 1 8 [1, 7] = .ok [[0, 1]] := okB_eq (by decide +kernel)
  have h4 : ∃ w, two (factArr 8) 9 1 1 6 = .ok w := by
    unfold two
    rw [if_neg (by decide)]
    refine ⟨factC 0 + (factC 1 + (factC 1 + (factC 5 + 0))), ?_⟩
    simp [sumFact, factArr]
  obtain ⟨w, hw⟩ := h4
  have h5 : ∃ s, sumFact (factArr 8) [0, 1] = .ok s := ⟨factC 0 + (factC 1 + 0), by simp [sumFact, factArr]⟩
  obtain ⟨s, hs⟩ := h5
  have h6 : expand (factArr 8) 8 8 [1, 1, 6] [1, 7] 0 ⟨10 ^ 100, []⟩ = .ok (S3.upd ⟨10 ^ 100, []⟩ (0 + s + w)) := by
    unfold expand
    rw [show (([1, 1, 6] : List ℤ).length : ℤ) - 1 = 2 by norm_num, show ([1, 1, 6] : List ℤ).headD 0 = 1 from rfl, h3]
    simp only [considerAll, consider, hs, place]
    rw [show (8 : ℤ) - 1 + 2 = 9 by norm_num, show (1 : ℤ) - 0 = 1 by norm_num, show (7 : ℤ) - 1 = 6 by norm_num, hw]
    rfl
  have h7 : (S3.upd ⟨10 ^ 100, []⟩ (0 + s + w)).tab = [] := (upd_vmn _ _).2.2
  rw [h1]
  unfold large
  rw [show ([1, 7] : List ℤ).getLastD 0 = 7 from rfl, h2]
  simp only [List.length_cons, List.length_nil]
  rw [if_neg (by norm_num)]
  unfold dp
  rw [show ([1, 7] : List ℤ).getLastD 0 + 1 = 8 from rfl, h6]
  simp only []
  unfold levels
  rw [if_neg (by rw [h7]; simp)]
  exact ⟨_, rfl⟩

theorem sumFact_neg {n : ℕ} {l : List ℤ} {x : ℤ} (h : x ∈ l) (hx : x < 0) : sumFact (factArr n) l = .ub := by
  induction l with
  | nil => cases h
  | cons a l ih =>
    unfold sumFact
    rcases List.mem_cons.mp h with rfl | h
    · have : factArr n x = .ub := by unfold factArr; rw [if_neg (by omega)]
      rw [this]
    · rw [ih h]
      cases factArr n a <;> rfl

theorem considerAll_neg {n : ℕ} {kyy nn : ℤ} {iro ico lb : List ℤ} {val : ℝ} {x : ℤ} (hx : x ∈ lb) (h0 : x < 0) {lbs : List (List ℤ)} :
    lb ∈ lbs → ∀ {st st' : S3}, considerAll (factArr n) kyy nn iro ico val lbs st ≠ .ok st' := by
  intro hm st st' h
  exact considerAll_mem (P := fun _ => False) (fun _ _ a _ => a)
    (fun _ _ hc => by unfold consider at hc; rw [sumFact_neg hx h0] at hc; cases hc) hm h

/-- **C194.** f3xact reads before its array of log factorials: for row totals 1, 9, 10, 10
and column totals 1 (20 times) and 10, no matter how many entries the array has. -/
theorem C194_reads_before_array_refuted (n : ℕ) (v : ℝ) :
    f3 (factArr n) [1, 9, 10, 10] (List.replicate 20 1 ++ [10]) ≠ .ok v := by
  intro h
  have h1 : f3 (factArr n) [1, 9, 10, 10] (List.replicate 20 1 ++ [10])
    = large (factArr n) 30 [1, 9, 10, 10] ((List.replicate 20 1 ++ [10])) := rfl
  have h2 : optimal (factArr n) 10 [1, 9, 10, 10] (List.replicate 20 1 ++ [10]) = .ok none := by
    unfold optimal f10act
    rw [if_neg (by decide +kernel : ¬ f10test [1, 9, 10, 10] (List.replicate 20 1 ++ [10]) = true), if_pos (by decide)]
    simp only []
    rw [if_neg (by decide)]
  have h3 : candidates 20 true 1 30 [1, 9, 10, 10] = .ok [[0, 0, 0, 1], [0, 0, 1, 0], [0, 1, 0, 0], [1, 0, 0, 0], [1, 1, 0, -1]] :=
    okB_eq (by decide +kernel)
  rw [h1] at h
  unfold large at h
  rw [show ([1, 9, 10, 10] : List ℤ).getLastD 0 = 10 from rfl, h2] at h
  simp only [] at h
  rw [if_neg (by decide)] at h
  obtain ⟨w, hw, _⟩ := negN_inv h
  unfold dp at hw
  split at hw
  · rename_i st hst
    unfold expand at hst
    rw [show ((List.replicate 20 1 ++ [10] : List ℤ).length : ℤ) - 1 = 20 by decide,
      show (List.replicate 20 1 ++ [10] : List ℤ).headD 0 = 1 from rfl, h3] at hst
    exact considerAll_neg (lb := [1, 1, 0, -1]) (x := -1) (by simp) (by norm_num) (by simp) hst
  · cases hw
  · cases hw

end Apop.Fisher.F3
