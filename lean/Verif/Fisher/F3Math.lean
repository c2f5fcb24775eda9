import Verif.Fisher.F3
import Verif.Fisher.Small
import Mathlib.Algebra.BigOperators.Fin
import Mathlib.Algebra.Order.BigOperators.Ring.Finset
import Mathlib.Tactic.LinearCombination

/-! # Most probable tables

Mathematics used for f3xact (apop_fexact.c); nothing here models code. -/

namespace Apop.Fisher.F3
open Apop Apop.Fisher Finset

/-- The sum of the logs of the factorials of the cells. -/
noncomputable def cellSum {r c : ℕ} (T : Table r c) : ℝ := ∑ i, ∑ j, lf (T i j)

/-- No exchange of two units makes the table more probable. -/
def Exch {r c : ℕ} (T : Table r c) : Prop :=
  ∀ i k j l, i ≠ k → j ≠ l → T i j * T k l ≤ (T i l + 1) * (T k j + 1)

/-- One unit from `(i, j)` to `(i, l)` and one from `(k, l)` to `(k, j)`. -/
def swap {r c : ℕ} (T : Table r c) (i k : Fin r) (j l : Fin c) : Table r c := fun a b =>
  if a = i then (if b = j then T i j - 1 else if b = l then T i l + 1 else T a b)
  else if a = k then (if b = j then T k j + 1 else if b = l then T k l - 1 else T a b)
  else T a b

theorem sum_two {n : ℕ} {β : Type*} [AddCommMonoid β] (f : Fin n → β) {i k : Fin n} (h : i ≠ k) :
    ∑ a, f a = f i + f k + ∑ a ∈ univ.erase i |>.erase k, f a := by
  have hk : k ∈ univ.erase i := by simp [h.symm]
  rw [← add_sum_erase univ f (mem_univ i), ← add_sum_erase _ f hk, add_assoc]

theorem swap_rowTot {r c : ℕ} {T : Table r c} {i k : Fin r} {j l : Fin c} (hjl : j ≠ l)
    (h1 : 1 ≤ T i j) (h2 : 1 ≤ T k l) : rowTot (swap T i k j l) = rowTot T := by
  funext a
  unfold rowTot
  by_cases ha : a = i
  · subst ha
    rw [sum_two _ hjl, sum_two (f := fun b => T a b) hjl]
    have : ∀ b ∈ (univ.erase j).erase l, swap T a k j l a b = T a b := by
      intro b hb
      simp only [mem_erase, mem_univ, and_true] at hb
      simp [swap, hb.1, hb.2]
    rw [show ∑ b ∈ (univ.erase j).erase l, swap T a k j l a b = ((univ.erase j).erase l).sum (T a) from sum_congr rfl this]
    have e1 : swap T a k j l a j = T a j - 1 := by simp [swap]
    have e2 : swap T a k j l a l = T a l + 1 := by simp [swap, hjl.symm]
    rw [e1, e2]
    show T a j - 1 + (T a l + 1) + _ = T a j + T a l + _
    generalize ((univ.erase j).erase l).sum (T a) = z
    omega
  · by_cases hk : a = k
    · subst hk
      rw [sum_two _ hjl, sum_two (f := fun b => T a b) hjl]
      have : ∀ b ∈ (univ.erase j).erase l, swap T i a j l a b = T a b := by
        intro b hb
        simp only [mem_erase, mem_univ, and_true] at hb
        simp [swap, hb.1, hb.2]
      rw [show ∑ b ∈ (univ.erase j).erase l, swap T i a j l a b = ((univ.erase j).erase l).sum (T a) from sum_congr rfl this]
      have e1 : swap T i a j l a j = T a j + 1 := by simp [swap, ha]
      have e2 : swap T i a j l a l = T a l - 1 := by simp [swap, hjl.symm, ha]
      rw [e1, e2]
      show T a j + 1 + (T a l - 1) + _ = T a j + T a l + _
      generalize ((univ.erase j).erase l).sum (T a) = z
      omega
    · exact sum_congr rfl (fun b _ => by simp [swap, ha, hk])

theorem swap_transpose {r c : ℕ} (T : Table r c) {i k : Fin r} {j l : Fin c} (hik : i ≠ k) (hjl : j ≠ l) (a : Fin r) (b : Fin c) :
    swap T i k j l a b = swap (fun b a => T a b) j l i k b a := by
  unfold swap
  by_cases h1 : a = i
  · by_cases h3 : b = j
    · subst h1 h3; simp
    · by_cases h4 : b = l
      · subst h1 h4; simp [h3]
      · simp [h1, h3, h4]
  · by_cases h2 : a = k
    · by_cases h3 : b = j
      · subst h2 h3; simp [h1]
      · by_cases h4 : b = l
        · subst h2 h4; simp [h3, h1]
        · simp [h1, h2, h3, h4]
    · by_cases h3 : b = j
      · simp [h1, h2, h3]
      · by_cases h4 : b = l
        · simp [h1, h2, h4]
        · simp [h1, h2, h3, h4]

theorem swap_colTot {r c : ℕ} {T : Table r c} {i k : Fin r} {j l : Fin c} (hik : i ≠ k) (hjl : j ≠ l)
    (h1 : 1 ≤ T i j) (h2 : 1 ≤ T k l) : colTot (swap T i k j l) = colTot T := by
  have := swap_rowTot (T := fun b a => T a b) (i := j) (k := l) (j := i) (l := k) hik h1 h2
  funext b
  have hb := congrFun this b
  unfold rowTot at hb
  unfold colTot
  rw [← hb]
  exact sum_congr rfl (fun a _ => swap_transpose T hik hjl a b)

theorem swap_cellSum {r c : ℕ} {T : Table r c} {i k : Fin r} {j l : Fin c} (hik : i ≠ k) (hjl : j ≠ l)
    (h1 : 1 ≤ T i j) (h2 : 1 ≤ T k l) :
    cellSum (swap T i k j l) = cellSum T + (Real.log ((T i l + 1 : ℕ) * (T k j + 1 : ℕ)) - Real.log ((T i j : ℕ) * (T k l : ℕ))) := by
  unfold cellSum
  rw [sum_two _ hik, sum_two (f := fun a => ∑ b, lf (T a b)) hik]
  have h3 : ∀ a ∈ (univ.erase i).erase k, ∑ b, lf (swap T i k j l a b) = ∑ b, lf (T a b) := by
    intro a ha
    simp only [mem_erase, mem_univ, and_true] at ha
    exact sum_congr rfl (fun b _ => by simp [swap, ha.1, ha.2])
  rw [sum_congr rfl h3]
  rw [sum_two (f := fun b => lf (swap T i k j l i b)) hjl, sum_two (f := fun b => lf (T i b)) hjl,
    sum_two (f := fun b => lf (swap T i k j l k b)) hjl, sum_two (f := fun b => lf (T k b)) hjl]
  have h4 : ∀ a b, b ∈ (univ.erase j).erase l → swap T i k j l a b = T a b := by
    intro a b hb
    simp only [mem_erase, mem_univ, and_true] at hb
    unfold swap
    simp [hb.1, hb.2]
  rw [sum_congr rfl (fun b hb => by rw [h4 i b hb]), sum_congr (s₁ := (univ.erase j).erase l) (f := fun b => lf (swap T i k j l k b)) rfl (fun b hb => by rw [h4 k b hb])]
  have e1 : swap T i k j l i j = T i j - 1 := by simp [swap]
  have e2 : swap T i k j l i l = T i l + 1 := by simp [swap, hjl.symm]
  have e3 : swap T i k j l k j = T k j + 1 := by simp [swap, hik.symm]
  have e4 : swap T i k j l k l = T k l - 1 := by simp [swap, hjl.symm, hik.symm]
  rw [e1, e2, e3, e4]
  obtain ⟨x, hx⟩ : ∃ x, T i j = x + 1 := ⟨T i j - 1, by omega⟩
  obtain ⟨y, hy⟩ : ∃ y, T k l = y + 1 := ⟨T k l - 1, by omega⟩
  rw [hx, hy, Nat.add_sub_cancel, Nat.add_sub_cancel, lf_succ, lf_succ, lf_succ, lf_succ,
    Real.log_mul (by positivity) (by positivity), Real.log_mul (by positivity) (by positivity)]
  ring

/-- There is a most probable table with given margins, and no exchange improves it. -/
theorem exists_best {r c : ℕ} {R : Fin r → ℕ} {C : Fin c → ℕ} {Y : Table r c} (hY : Y ∈ tables R C) :
    ∃ T ∈ tables R C, Exch T ∧ cellSum T ≤ cellSum Y := by
  obtain ⟨T, hT, hmin⟩ := exists_min_image (tables R C) cellSum ⟨Y, hY⟩
  refine ⟨T, hT, ?_, hmin Y hY⟩
  intro i k j l hik hjl
  rcases Nat.eq_zero_or_pos (T i j) with h1 | h1
  · rw [h1, Nat.zero_mul]; exact Nat.zero_le _
  rcases Nat.eq_zero_or_pos (T k l) with h2 | h2
  · rw [h2, Nat.mul_zero]; exact Nat.zero_le _
  by_contra hlt
  push Not at hlt
  have hmem : swap T i k j l ∈ tables R C := by
    rw [mem_tables] at hT ⊢
    rw [swap_rowTot hjl h1 h2, swap_colTot hik hjl h1 h2]; exact hT
  have := hmin _ hmem
  rw [swap_cellSum hik hjl h1 h2] at this
  have hlog : Real.log ((T i l + 1 : ℕ) * (T k j + 1 : ℕ)) < Real.log ((T i j : ℕ) * (T k l : ℕ)) :=
    Real.log_lt_log (by positivity) (by exact_mod_cast hlt)
  linarith

/-- A column with the cell of the first row apart. -/
abbrev Col1 (m : ℕ) := ℕ × (Fin m → ℕ)

/-- The total of the column. -/
def Col1.tot {m : ℕ} (p : Col1 m) : ℕ := p.1 + ∑ k, p.2 k

/-- No exchange between the first row and the others, for two columns. -/
def Fair {m : ℕ} (p q : Col1 m) : Prop :=
  ∀ k, p.1 * q.2 k ≤ (q.1 + 1) * (p.2 k + 1) ∧ q.1 * p.2 k ≤ (p.1 + 1) * (q.2 k + 1)

theorem upper_sum {m : ℕ} {p : Col1 m} {cs : List (Col1 m)} (h : ∀ q ∈ cs, Fair p q) :
    p.1 * (cs.map (fun q => ∑ k, q.2 k)).sum ≤ ((cs.map Prod.fst).sum + cs.length) * (∑ k, p.2 k + m) := by
  induction cs with
  | nil => simp
  | cons q cs ih =>
    have h1 := ih (fun q hq => h q (List.mem_cons_of_mem _ hq))
    have h2 : p.1 * ∑ k, q.2 k ≤ (q.1 + 1) * (∑ k, p.2 k + m) := by
      have : ∑ k : Fin m, p.2 k + m = ∑ k : Fin m, (p.2 k + 1) := by rw [sum_add_distrib]; simp
      rw [this, mul_sum, mul_sum]
      exact sum_le_sum (fun k _ => (h q (by simp) k).1)
    simp only [List.map_cons, List.sum_cons, List.length_cons]
    generalize ∑ k, p.2 k + m = D at *
    nlinarith

theorem lower_sum {m : ℕ} {p : Col1 m} {cs : List (Col1 m)} (h : ∀ q ∈ cs, Fair p q) :
    (cs.map Prod.fst).sum * ∑ k, p.2 k ≤ (p.1 + 1) * ((cs.map (fun q => ∑ k, q.2 k)).sum + m * cs.length) := by
  induction cs with
  | nil => simp
  | cons q cs ih =>
    have h1 := ih (fun q hq => h q (List.mem_cons_of_mem _ hq))
    have h2 : q.1 * ∑ k, p.2 k ≤ (p.1 + 1) * (∑ k, q.2 k + m) := by
      have : ∑ k : Fin m, q.2 k + m = ∑ k : Fin m, (q.2 k + 1) := by rw [sum_add_distrib]; simp
      rw [this, mul_sum, mul_sum]
      exact sum_le_sum (fun k _ => (h q (by simp) k).2)
    simp only [List.map_cons, List.sum_cons, List.length_cons]
    generalize ∑ k, p.2 k = D at *
    nlinarith

theorem tot_sum {m : ℕ} (cs : List (Col1 m)) :
    (cs.map Col1.tot).sum = (cs.map Prod.fst).sum + (cs.map (fun q => ∑ k, q.2 k)).sum := by
  induction cs with
  | nil => rfl
  | cons q cs ih =>
    simp only [List.map_cons, List.sum_cons, ih, Col1.tot]
    omega

/-- The cell is within the two quotients. -/
theorem cell_bounds {m : ℕ} {p : Col1 m} {cs : List (Col1 m)} (h : ∀ q ∈ cs, Fair p q) :
    p.1 * (p.tot + (cs.map Col1.tot).sum + m + cs.length) ≤ (p.1 + (cs.map Prod.fst).sum + cs.length) * (p.tot + m)
    ∧ (p.1 + (cs.map Prod.fst).sum + 1) * (p.tot + 1) ≤ (p.1 + 1) * (p.tot + (cs.map Col1.tot).sum + m * cs.length + 1) := by
  have h1 := upper_sum h
  have h2 := lower_sum h
  rw [tot_sum]
  unfold Col1.tot
  generalize (cs.map Prod.fst).sum = A at *
  generalize (cs.map (fun q => ∑ k, q.2 k)).sum = S at *
  generalize ∑ k, p.2 k = Y at *
  generalize cs.length = n at *
  generalize p.1 = x at *
  generalize hmn : m * n = mn at *
  constructor
  · nlinarith
  · nlinarith

end Apop.Fisher.F3
