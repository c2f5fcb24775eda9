import Verif.Fisher.DaughterThms

/-! # The columns of one mother node -/

namespace Apop.Fisher
open Finset

theorem firstLoop_fill (imax : ℕ → ℕ) : ∀ (k n kmax : ℕ) (d : ℕ → ℕ), k < kmax → 0 < d kmax →
    firstLoop imax k n kmax d = ((fill imax k n d).1, (fill imax k n d).2.1, (fill imax k n d).2.2, kmax) := by
  intro k
  induction k with
  | zero => intros; rfl
  | succ k ih =>
    intro n kmax d hk hd
    unfold firstLoop fill
    have h : upd d (k + 1) (min n (imax (k + 1))) kmax = d kmax := upd_ne _ (by omega)
    by_cases hc : 0 < n - min n (imax (k + 1)) ∧ k ≠ 0
    · rw [if_pos hc, if_pos hc, h, if_neg (by omega)]
      exact ih _ _ _ (by omega) (by rw [h]; exact hd)
    · rw [if_neg hc, if_neg hc, h, if_neg (by omega)]

theorem firstLoop_top {imax : ℕ → ℕ} {r n : ℕ} (hr : 0 < imax r) (h1 : 1 ≤ r) (hn : 0 < n) :
    firstLoop imax r n r (fun _ => 0)
      = ((fill imax r n (fun _ => 0)).1, (fill imax r n (fun _ => 0)).2.1, (fill imax r n (fun _ => 0)).2.2, r) := by
  obtain ⟨k, rfl⟩ : ∃ k, r = k + 1 := ⟨r - 1, by omega⟩
  unfold firstLoop fill
  have h : upd (fun _ => 0) (k + 1) (min n (imax (k + 1))) (k + 1) = min n (imax (k + 1)) := upd_same _ _ _
  by_cases hc : 0 < n - min n (imax (k + 1)) ∧ k ≠ 0
  · rw [if_pos hc, if_pos hc, h, if_neg (by omega)]
    exact firstLoop_fill imax _ _ _ _ (by omega) (by rw [h]; omega)
  · rw [if_neg hc, if_neg hc, h, if_neg (by omega)]

theorem enum_total_zero (imax : ℕ → ℕ) : ∀ r, enum imax r 0 = [fun _ => 0] := by
  intro r
  induction r with
  | zero => rfl
  | succ r ih =>
    unfold enum
    rw [Nat.zero_min]
    unfold blocks
    rw [ih, List.map_singleton, upd_self rfl]

/-- **The generator.** For row totals with something in the last row, and a column
total smaller than the grand total, the loops of f2xact and f7xact visit exactly
the columns that fit, each once. -/
theorem columns_eq {imax : ℕ → ℕ} {r n fuel : ℕ} (h1 : 1 ≤ r) (hr : 0 < imax r) (hn : n < low imax r)
    (hf : (enum imax r n).length ≤ fuel) : columns r imax n fuel = .ok (enum imax r n) := by
  unfold columns
  by_cases h0 : n = 0
  · subst h0
    rw [enum_total_zero] at hf ⊢
    obtain ⟨f, rfl⟩ : ∃ f, fuel = f + 1 := ⟨fuel - 1, by simp at hf; omega⟩
    obtain ⟨k, rfl⟩ : ∃ k, r = k + 1 := ⟨r - 1, by omega⟩
    have hfl : firstLoop imax (k + 1) 0 (k + 1) (fun _ => 0) = (k + 1, 0, (fun _ => 0), k) := by
      unfold firstLoop
      rw [Nat.zero_min, if_neg (by omega), upd_self rfl]
      simp
    rw [hfl]
    simp only [ne_eq, not_true_eq_false, if_false]
    unfold columnsFrom f7xact
    rw [if_pos rfl]
    obtain ⟨s, a, _⟩ := ksUp_spec (imax := imax) (d := fun _ => 0) (n := k + 1) (fun i _ _ => Nat.zero_le _) (k + 1 + 1) 0
      (by omega) (room (v := fun _ => 0) (fun i _ _ => Nat.zero_le _)
        (by rw [low_zero_of (v := fun _ => 0) (fun _ _ _ => rfl)]; exact hn))
    simp only [a]
    unfold f7Known
    rw [if_neg (by simp)]
    unfold f7Loop
    rw [Nat.sub_eq_zero_of_le (Nat.le_succ k)]
    simp [findNZ]
  · obtain ⟨f1, f2, f3⟩ := fill_spec imax r n (fun _ => 0) h1 (fun _ _ _ => rfl)
    obtain ⟨g1, g2, g3, g4⟩ := f3 (by omega) (by omega)
    have hd : (fill imax r n (fun _ => 0)).2.2 = top imax r n := by
      rw [f1]
      funext i
      by_cases hi : 1 ≤ i ∧ i ≤ r
      · rw [if_pos hi]
      · rw [if_neg hi, top_out _ _ _ _ (by omega)]
    rw [firstLoop_top hr h1 (by omega)]
    simp only [f2, hd]
    rw [if_neg (by omega)]
    refine columnsFrom_walk hn (enum_walk imax r n (by omega)) (fun u hu => mem_enum.mp hu) _ rfl
      ⟨g3, g1, g4, fun h => absurd rfl h, fun h => absurd rfl h⟩ _ hf

end Apop.Fisher
