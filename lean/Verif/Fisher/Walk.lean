import Verif.Fisher.Enum
import Mathlib.Algebra.Order.BigOperators.Group.Finset

/-! # From one column to the next -/

namespace Apop.Fisher
open Finset

/-- Row `kk` of `v` can give a unit to the rows below it. -/
def Can (imax v : ℕ → ℕ) (kk : ℕ) : Prop := 0 < v kk ∧ low v (kk - 1) + 1 ≤ low imax (kk - 1)

/-- Row `kk` gives a unit to the rows below, which are repacked. -/
def give (imax v : ℕ → ℕ) (kk : ℕ) : ℕ → ℕ := fun i =>
  if i < kk then top imax (kk - 1) (low v (kk - 1) + 1) i else if i = kk then v kk - 1 else v i

/-- `v'` follows `v`. -/
def Next (imax : ℕ → ℕ) (r : ℕ) (v v' : ℕ → ℕ) : Prop :=
  ∃ kk, 1 ≤ kk ∧ kk ≤ r ∧ Can imax v kk ∧ (∀ j, 1 ≤ j → j < kk → ¬ Can imax v j) ∧ v' = give imax v kk

/-- Nothing follows `v`. -/
def Last (imax : ℕ → ℕ) (r : ℕ) (v : ℕ → ℕ) : Prop := ∀ j, 1 ≤ j → j ≤ r → ¬ Can imax v j

/-- `l` lists `v` and all that follow. -/
inductive Walk (imax : ℕ → ℕ) (r : ℕ) : (ℕ → ℕ) → List (ℕ → ℕ) → Prop
  | stop {v} (h : Last imax r v) : Walk imax r v [v]
  | step {v v' l} (h : Next imax r v v') (w : Walk imax r v' l) : Walk imax r v (v :: l)

theorem can_upd {imax v : ℕ → ℕ} {r x j : ℕ} (hj : j ≤ r) : Can imax (upd v (r + 1) x) j ↔ Can imax v j := by
  unfold Can
  rw [upd_ne _ (by omega), low_upd_gt _ (by omega)]

theorem give_upd {imax v : ℕ → ℕ} {r x j : ℕ} (hj : j ≤ r) :
    give imax (upd v (r + 1) x) j = upd (give imax v j) (r + 1) x := by
  funext i
  unfold give
  rw [low_upd_gt _ (by omega), upd_ne _ (show j ≠ r + 1 by omega)]
  by_cases h1 : i = r + 1
  · subst h1
    rw [if_neg (by omega), if_neg (by omega), upd_same, upd_same]
  · rw [upd_ne _ h1, upd_ne _ h1]

theorem next_upd {imax v v' : ℕ → ℕ} {r x : ℕ} (h : Next imax r v v') :
    Next imax (r + 1) (upd v (r + 1) x) (upd v' (r + 1) x) := by
  obtain ⟨kk, h1, h2, h3, h4, rfl⟩ := h
  exact ⟨kk, h1, by omega, (can_upd h2).mpr h3, fun j a b c => h4 j a b ((can_upd (by omega)).mp c),
    (give_upd h2).symm⟩

theorem walk_end {imax v : ℕ → ℕ} {r x m : ℕ} {l : List (ℕ → ℕ)} (h : Walk imax r v l)
    (hm : ∀ w ∈ l, low w r = m) (hx : x = 0 ∨ low imax r < m + 1) :
    Walk imax (r + 1) (upd v (r + 1) x) (l.map (fun w => upd w (r + 1) x)) := by
  induction h with
  | @stop v h =>
    refine Walk.stop (fun j h1 h2 hc => ?_)
    by_cases hj : j ≤ r
    · exact h j h1 hj ((can_upd hj).mp hc)
    · obtain rfl : j = r + 1 := by omega
      unfold Can at hc
      rw [upd_same, Nat.add_sub_cancel, low_upd_gt _ (by omega), hm v (by simp)] at hc
      omega
  | @step v v' l h w ih =>
    exact Walk.step (next_upd h) (ih (fun w hw => hm w (List.mem_cons_of_mem _ hw)))

theorem top_out (imax : ℕ → ℕ) : ∀ r n i : ℕ, i = 0 ∨ r < i → top imax r n i = 0 := by
  intro r
  induction r with
  | zero => intros; rfl
  | succ r ih => intro n i hi; unfold top; rw [upd_ne _ (by omega)]; exact ih _ _ (by omega)

theorem walk_more {imax v : ℕ → ℕ} {r x m : ℕ} {l L : List (ℕ → ℕ)} (h : Walk imax r v l)
    (hm : ∀ w ∈ l, Fits imax r m w) (hx : 0 < x) (hc : m + 1 ≤ low imax r)
    (hL : Walk imax (r + 1) (upd (top imax r (m + 1)) (r + 1) (x - 1)) L) :
    Walk imax (r + 1) (upd v (r + 1) x) (l.map (fun w => upd w (r + 1) x) ++ L) := by
  induction h with
  | @stop v h =>
    refine Walk.step ⟨r + 1, by omega, le_refl _, ?_, fun j h1 h2 hc => ?_, ?_⟩ hL
    · unfold Can
      rw [upd_same, Nat.add_sub_cancel, low_upd_gt _ (by omega), (hm v (by simp)).tot]
      exact ⟨hx, hc⟩
    · exact h j h1 (by omega) ((can_upd (by omega)).mp hc)
    · funext i
      unfold give
      rw [Nat.add_sub_cancel, low_upd_gt _ (by omega), (hm v (by simp)).tot, upd_same]
      by_cases h1 : i = r + 1
      · subst h1
        rw [upd_same, if_neg (by omega), if_pos rfl]
      · rw [upd_ne _ h1]
        by_cases h2 : i < r + 1
        · rw [if_pos h2]
        · rw [if_neg h2, if_neg h1, upd_ne _ h1, top_out _ _ _ _ (by omega), (hm v (by simp)).out i (by omega)]
  | @step v v' l h w ih =>
    exact Walk.step (next_upd h) (ih (fun w hw => hm w (List.mem_cons_of_mem _ hw)))

theorem enum_empty {imax : ℕ → ℕ} {r n : ℕ} (h : low imax r < n) : enum imax r n = [] := by
  refine List.eq_nil_iff_forall_not_mem.mpr (fun v hv => ?_)
  have hf := mem_enum.mp hv
  have : low v r ≤ low imax r := by
    unfold low
    refine Finset.sum_le_sum (fun i hi => hf.le _ (by omega) ?_)
    have := Finset.mem_range.mp hi; omega
  have := hf.tot
  omega

/-- The list of all columns is a walk from the first one. -/
theorem enum_walk (imax : ℕ → ℕ) : ∀ r n : ℕ, n ≤ low imax r → Walk imax r (top imax r n) (enum imax r n) := by
  intro r
  induction r with
  | zero =>
    intro n hn
    rw [low_zero] at hn
    have : n = 0 := by omega
    subst this
    exact Walk.stop (fun j h1 h2 => by omega)
  | succ r ih =>
    intro n hn
    rw [low_succ] at hn
    unfold enum top
    have key : ∀ x, x ≤ n →
        (n - x ≤ low imax r → Walk imax (r + 1) (upd (top imax r (n - x)) (r + 1) x) (blocks (enum imax r) r n x))
        ∧ (low imax r < n - x → blocks (enum imax r) r n x = []) := by
      intro x
      induction x with
      | zero =>
        intro _
        refine ⟨fun h => ?_, fun h => ?_⟩
        · exact walk_end (ih _ h) (fun w hw => (mem_enum.mp hw).tot) (Or.inl rfl)
        · unfold blocks; rw [enum_empty (by omega)]; rfl
      | succ x ihx =>
        intro hxn
        obtain ⟨i1, i2⟩ := ihx (by omega)
        refine ⟨fun h => ?_, fun h => ?_⟩
        · unfold blocks
          by_cases hc : n - x ≤ low imax r
          · have hw := i1 hc
            refine walk_more (ih _ h) (fun w hw => mem_enum.mp hw) (by omega) (by omega) ?_
            rw [Nat.add_sub_cancel, show n - (x + 1) + 1 = n - x by omega]
            exact hw
          · rw [i2 (by omega), List.append_nil]
            exact walk_end (ih _ h) (fun w hw => (mem_enum.mp hw).tot) (Or.inr (by omega))
        · unfold blocks
          rw [enum_empty (by omega), i2 (by omega)]; rfl
    exact (key _ (min_le_left _ _)).1 (by omega)

end Apop.Fisher
