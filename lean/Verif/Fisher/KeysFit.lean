import Verif.Fisher.TwoCols

/-! # The test for the size of the hash keys (apop_fexact.c:432-451) -/

namespace Apop.Fisher

theorem keysFit_mul (l : List ℕ) (acc : ℕ) (h : 1 ≤ acc) (hl : acc ≤ 2147483647) : keysFit acc l ↔ acc * (l.map (· + 1)).prod ≤ 2147483647 := by
  induction l generalizing acc with
  | nil => simp [keysFit, hl]
  | cons a l ih =>
    have e : a + 1 ≤ intMax / acc ↔ acc * (a + 1) ≤ 2147483647 := by
      rw [Nat.le_div_iff_mul_le (by omega), Nat.mul_comm]; rfl
    rw [keysFit, e, List.map_cons, List.prod_cons, ← Nat.mul_assoc]
    constructor
    · rintro ⟨h1, h2⟩
      exact (ih _ (Nat.mul_pos h (by omega)) h1).1 h2
    · intro h2
      have hp : 1 ≤ (l.map (· + 1)).prod := List.one_le_prod_of_one_le (by simp)
      have h1 : acc * (a + 1) ≤ 2147483647 := (Nat.le_mul_of_pos_right _ hp).trans h2
      exact ⟨h1, (ih _ (Nat.mul_pos h (by omega)) h1).2 h2⟩

theorem prod_sorted {n : ℕ} (f : Fin n → ℕ) : ((sortUp (List.ofFn f)).map (· + 1)).prod = ∏ i, (f i + 1) := by
  rw [((sortUp_perm (List.ofFn f)).map _).prod_eq, List.map_ofFn, List.prod_ofFn]
  rfl

/-- **C188 (keys).** A table of counts with at least two columns and not only zeros, for which there is room: let the *shorter side* be the columns if there are fewer columns than rows, the rows otherwise. If the product
of its totals plus one is over 2147483647, the result is the error, without values; if it isn't, the test goes on. -/
theorem C188_keys {E : Env} {r c : ℕ} {m : ℕ → ℕ → ℝ} {X : Table r c} (hm : HoldsTable m X) (hp : 0 < total X) (hc : 2 ≤ c) (ht : total X ≤ 1000000) (hr : RoomOK r c (total X)) :
    ((if c < r then ∏ j, (colTot X j + 1) else ∏ i, (rowTot X i + 1)) > 2147483647 → fisherExact E r c m = .ok ⟨.unset, .unset, true⟩) ∧
    ((if c < r then ∏ j, (colTot X j + 1) else ∏ i, (rowTot X i + 1)) ≤ 2147483647 → ∃ tab, toIntArray r c m = .ok tab ∧ fisherExact E r c m = runNet E r c tab) := by
  obtain ⟨tab, htab⟩ := toIntArray_total hm (by omega)
  have hi := toIntArray_ok hm htab
  have key : keysFit 1 (margins r c tab).1 ↔ (if c < r then ∏ j, (colTot X j + 1) else ∏ i, (rowTot X i + 1)) ≤ 2147483647 := by
    rw [keysFit_mul _ 1 (le_refl 1) (by omega), Nat.one_mul]
    by_cases h : c < r
    · rw [margins_tall hi h, if_pos h, prod_sorted]
    · rw [margins_wide hi h, if_neg h, prod_sorted]
  unfold fisherExact
  rw [htab]
  simp only []
  constructor
  · intro hk
    have hn : ¬ keysFit 1 (margins r c tab).1 := by rw [key]; omega
    unfold fexact
    rw [grand_eq hi, if_neg (by omega), if_neg (not_not.mpr hr), if_neg (by omega), if_neg, if_pos hn]
    rintro ⟨i, hi', j, hj, hneg⟩
    have := hi ⟨i, hi'⟩ ⟨j, hj⟩
    simp only [] at this
    omega
  · intro hk
    exact ⟨tab, rfl, fexact_run hi hp hc hr (key.2 hk)⟩

/-! Cases that meet the hypotheses: 60 observations, five for each cell of the diagonal of a 12 by 12 table, are too many (6^12 > 2^31); those of an 11 by 11 table are not. -/

/-- Five on the diagonal. -/
def diagFive (n : ℕ) : Table n n := fun i j => if i = j then 5 else 0

example (E : Env) : fisherExact E 12 12 (fun i j => if i = j then 5 else 0) = .ok ⟨.unset, .unset, true⟩ := by
  have ht : total (diagFive 12) = 60 := by decide +kernel
  refine (C188_keys (X := diagFive 12) (by intro i j; simp only [diagFive]; by_cases h : i = j <;> simp [h, Fin.val_inj]) (by omega) (by omega) (by omega)
    (C186_room_small (by omega) (by omega) (by omega) (by omega))).1 ?_
  rw [if_neg (by omega)]
  decide +kernel

example (E : Env) : ∃ tab, toIntArray 11 11 (fun i j => if i = j then 5 else 0) = .ok tab ∧ fisherExact E 11 11 (fun i j => if i = j then 5 else 0) = runNet E 11 11 tab := by
  have ht : total (diagFive 11) = 55 := by decide +kernel
  refine (C188_keys (X := diagFive 11) (by intro i j; simp only [diagFive]; by_cases h : i = j <;> simp [h, Fin.val_inj]) (by omega) (by omega) (by omega)
    (C186_room_small (by omega) (by omega) (by omega) (by omega))).2 ?_
  rw [if_neg (by omega)]
  decide +kernel

end Apop.Fisher
