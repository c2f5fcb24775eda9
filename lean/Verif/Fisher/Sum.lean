import Mathlib.Data.Nat.Choose.Vandermonde
import Mathlib.Analysis.SpecialFunctions.Log.Basic
import Mathlib.Algebra.BigOperators.Intervals
import Mathlib.Data.List.Sort

/-! # Sums over the columns that fit beside given row totals

Mathematics used for apop_test_fisher_exact (apop_fexact.c): sums over the ways
to fill the next column of a table, and over the ways to fill all the remaining
columns. Nothing here models code. -/

namespace Apop.Fisher
open Finset

/-- The logarithm of `n!`. -/
noncomputable def lf (n : ℕ) : ℝ := Real.log (n.factorial : ℝ)

theorem exp_lf (n : ℕ) : Real.exp (lf n) = (n.factorial : ℝ) := by
  unfold lf
  rw [Real.exp_log]; exact_mod_cast n.factorial_pos

theorem lf_zero : lf 0 = 0 := by simp [lf]

/-- The logarithm of the multinomial coefficient `tot! / ∏ ir!`. -/
noncomputable def lmult (tot : ℕ) (ir : List ℕ) : ℝ := lf tot - (ir.map lf).sum

/-- Sum of `F` over the ways to take `n` units out of the row totals `l`, no more
than there are in each row; `F` sees, per row, how many were taken and how many
were left. -/
def S : List ℕ → ℕ → (List (ℕ × ℕ) → ℝ) → ℝ
  | [], n, F => if n = 0 then F [] else 0
  | a :: l, n, F => ∑ x ∈ range (a + 1), if x ≤ n then S l (n - x) (fun ps => F ((x, a - x) :: ps)) else 0

/-- `ps` is a way to take `n` units out of `l`. -/
inductive Way : List ℕ → ℕ → List (ℕ × ℕ) → Prop
  | nil : Way [] 0 []
  | cons {a l n ps} (x : ℕ) (hx : x ≤ a) (hn : x ≤ n) (h : Way l (n - x) ps) :
      Way (a :: l) n ((x, a - x) :: ps)

theorem S_le {l : List ℕ} : ∀ {n : ℕ} {F G : List (ℕ × ℕ) → ℝ},
    (∀ ps, Way l n ps → F ps ≤ G ps) → S l n F ≤ S l n G := by
  induction l with
  | nil =>
    intro n F G h
    by_cases hn : n = 0
    · subst hn; simpa [S] using h [] Way.nil
    · simp [S, hn]
  | cons a l ih =>
    intro n F G h
    unfold S
    refine Finset.sum_le_sum (fun x hx => ?_)
    by_cases hn : x ≤ n
    · rw [if_pos hn, if_pos hn]
      exact ih (fun ps hp => h _ (Way.cons x (by simpa [Nat.lt_succ_iff] using hx) hn hp))
    · rw [if_neg hn, if_neg hn]

theorem S_congr {l : List ℕ} {n : ℕ} {F G : List (ℕ × ℕ) → ℝ}
    (h : ∀ ps, Way l n ps → F ps = G ps) : S l n F = S l n G :=
  le_antisymm (S_le fun ps hp => (h ps hp).le) (S_le fun ps hp => (h ps hp).ge)

theorem S_mul (k : ℝ) {l : List ℕ} : ∀ {n : ℕ} {F : List (ℕ × ℕ) → ℝ},
    S l n (fun ps => k * F ps) = k * S l n F := by
  induction l with
  | nil => intro n F; by_cases hn : n = 0 <;> simp [S, hn]
  | cons a l ih =>
    intro n F
    unfold S
    rw [Finset.mul_sum]
    refine Finset.sum_congr rfl (fun x _ => ?_)
    by_cases hn : x ≤ n
    · rw [if_pos hn, if_pos hn, ← ih]
    · rw [if_neg hn, if_neg hn, mul_zero]

theorem S_zero {l : List ℕ} {n : ℕ} : S l n (fun _ => 0) = 0 := by
  have h := S_mul (l := l) (n := n) (F := fun _ => 0) 0
  simpa using h

theorem S_nonneg {l : List ℕ} {n : ℕ} {F : List (ℕ × ℕ) → ℝ} (h : ∀ ps, 0 ≤ F ps) : 0 ≤ S l n F := by
  rw [← S_zero (l := l) (n := n)]
  exact S_le (fun ps _ => h ps)

/-- `F` does not depend on the order of the rows. -/
def OrderFree (F : List (ℕ × ℕ) → ℝ) : Prop := ∀ ps qs, List.Perm ps qs → F ps = F qs

theorem S_perm {l l' : List ℕ} (hp : List.Perm l l') : ∀ (n : ℕ) (F : List (ℕ × ℕ) → ℝ),
    OrderFree F → S l n F = S l' n F := by
  induction hp with
  | nil => intros; rfl
  | cons a _ ih =>
    intro n F hF
    unfold S
    refine Finset.sum_congr rfl (fun x _ => ?_)
    by_cases hn : x ≤ n
    · rw [if_pos hn, if_pos hn]
      exact ih _ _ (fun ps qs h => hF _ _ (h.cons _))
    · rw [if_neg hn, if_neg hn]
  | swap a b l =>
    intro n F hF
    have key : ∀ (a b : ℕ), S (a :: b :: l) n F
        = ∑ x ∈ range (a + 1), ∑ y ∈ range (b + 1), if x + y ≤ n then
            S l (n - (x + y)) (fun ps => F ((x, a - x) :: (y, b - y) :: ps)) else 0 := by
      intro a b
      simp only [S]
      refine Finset.sum_congr rfl (fun x _ => ?_)
      by_cases hn : x ≤ n
      · rw [if_pos hn]
        refine Finset.sum_congr rfl (fun y _ => ?_)
        by_cases hy : y ≤ n - x
        · rw [if_pos hy, if_pos (by omega), Nat.sub_sub]
        · rw [if_neg hy, if_neg (by omega)]
      · rw [if_neg hn]
        symm
        refine Finset.sum_eq_zero (fun y _ => ?_)
        rw [if_neg (by omega)]
    rw [key, key, Finset.sum_comm]
    refine Finset.sum_congr rfl (fun x _ => Finset.sum_congr rfl (fun y _ => ?_))
    by_cases hn : x + y ≤ n
    · rw [if_pos hn, if_pos (by omega), Nat.add_comm y x]
      exact S_congr (fun ps _ => hF _ _ (List.Perm.swap _ _ _))
    · rw [if_neg hn, if_neg (by omega)]
  | trans _ _ ih1 ih2 =>
    intro n F hF
    rw [ih1 n F hF, ih2 n F hF]

theorem Way.props {l : List ℕ} {n : ℕ} {ps : List (ℕ × ℕ)} (h : Way l n ps) :
    (ps.map Prod.fst).sum = n ∧ (ps.map Prod.snd).sum + n = l.sum ∧ ps.length = l.length := by
  induction h with
  | nil => simp
  | cons x hx hn _ ih =>
    obtain ⟨h1, h2, h3⟩ := ih
    refine ⟨?_, ?_, ?_⟩
    · rw [List.map_cons, List.sum_cons, h1]; show x + _ = _; omega
    · rw [List.map_cons, List.sum_cons, List.sum_cons]; show (_ - x) + _ + _ = _; omega
    · rw [List.length_cons, List.length_cons, h3]

/-- Vandermonde's identity for many rows. -/
theorem S_choose (l : List ℕ) : ∀ n : ℕ,
    S l n (fun ps => (ps.map (fun p => ((p.1 + p.2).choose p.1 : ℝ))).prod) = (l.sum.choose n : ℝ) := by
  induction l with
  | nil => intro n; cases n <;> simp [S]
  | cons a l ih =>
    intro n
    unfold S
    have h1 : ∀ x ∈ range (a + 1), (if x ≤ n then S l (n - x) (fun ps =>
          (((x, a - x) :: ps).map (fun p => ((p.1 + p.2).choose p.1 : ℝ))).prod) else 0)
        = if x ≤ n then (a.choose x : ℝ) * (l.sum.choose (n - x) : ℝ) else 0 := by
      intro x hx
      have hx' : x ≤ a := by simpa [Nat.lt_succ_iff] using hx
      by_cases hn : x ≤ n
      · rw [if_pos hn, if_pos hn, ← ih, ← S_mul]
        simp only [List.map_cons, List.prod_cons, Nat.add_sub_cancel' hx']
      · rw [if_neg hn, if_neg hn]
    rw [Finset.sum_congr rfl h1, List.sum_cons, Nat.add_choose_eq, Nat.cast_sum,
      Finset.Nat.sum_antidiagonal_eq_sum_range_succ_mk]
    have h2 : ∑ x ∈ range (a + 1), (if x ≤ n then (a.choose x : ℝ) * (l.sum.choose (n - x) : ℝ) else 0)
        = ∑ x ∈ range (a + 1 + n.succ), (if x ≤ n then (a.choose x : ℝ) * (l.sum.choose (n - x) : ℝ) else 0) := by
      refine Finset.sum_subset (fun x hx => by simp at hx ⊢; omega) (fun x _ hx => ?_)
      have : a < x := by simp at hx; omega
      simp [Nat.choose_eq_zero_of_lt this]
    have h3 : ∑ x ∈ range n.succ, ((a.choose x * l.sum.choose (n - x) : ℕ) : ℝ)
        = ∑ x ∈ range (a + 1 + n.succ), (if x ≤ n then (a.choose x : ℝ) * (l.sum.choose (n - x) : ℝ) else 0) := by
      have : ∑ x ∈ range n.succ, ((a.choose x * l.sum.choose (n - x) : ℕ) : ℝ)
          = ∑ x ∈ range n.succ, (if x ≤ n then (a.choose x : ℝ) * (l.sum.choose (n - x) : ℝ) else 0) := by
        refine Finset.sum_congr rfl (fun x hx => ?_)
        rw [if_pos (by simpa [Nat.lt_succ_iff] using hx), Nat.cast_mul]
      rw [this]
      refine Finset.sum_subset (fun x hx => by simp at hx ⊢; omega) (fun x _ hx => ?_)
      rw [if_neg (by simpa [Nat.lt_succ_iff] using hx)]
    rw [h2, h3]

theorem exp_lmult (n : ℕ) (l : List ℕ) :
    Real.exp (lmult n l) = (n.factorial : ℝ) / (l.map (fun x => (x.factorial : ℝ))).prod := by
  unfold lmult
  rw [Real.exp_sub, exp_lf]
  congr 1
  induction l with
  | nil => simp
  | cons a l ih => simp [Real.exp_add, exp_lf, ih]

theorem prod_fac_pos (l : List ℕ) : 0 < (l.map (fun x => (x.factorial : ℝ))).prod := by
  induction l with
  | nil => simp
  | cons a l ih =>
    simp only [List.map_cons, List.prod_cons]
    exact mul_pos (by exact_mod_cast a.factorial_pos) ih

theorem way_choose {l : List ℕ} {n : ℕ} {ps : List (ℕ × ℕ)} (h : Way l n ps) :
    ((ps.map Prod.fst).map (fun x => (x.factorial : ℝ))).prod * ((ps.map Prod.snd).map (fun x => (x.factorial : ℝ))).prod
      * (ps.map (fun p => ((p.1 + p.2).choose p.1 : ℝ))).prod = (l.map (fun x => (x.factorial : ℝ))).prod := by
  induction h with
  | nil => simp
  | @cons a l n ps x hx hn _ ih =>
    simp only [List.map_cons, List.prod_cons, Nat.add_sub_cancel' hx]
    rw [← ih]
    have := Nat.choose_mul_factorial_mul_factorial hx
    have h2 : (a.choose x : ℝ) * (x.factorial : ℝ) * ((a - x).factorial : ℝ) = (a.factorial : ℝ) := by
      exact_mod_cast this
    rw [← h2]; ring

/-- The multinomial coefficients of the next column and of what it leaves add up,
over all columns, to the multinomial coefficient of the rows. -/
theorem S_lmult {l : List ℕ} {n m : ℕ} (hm : l.sum = n + m) :
    S l n (fun ps => Real.exp (lmult n (ps.map Prod.fst)) * Real.exp (lmult m (ps.map Prod.snd)))
      = Real.exp (lmult l.sum l) := by
  have h1 : S l n (fun ps => Real.exp (lmult n (ps.map Prod.fst)) * Real.exp (lmult m (ps.map Prod.snd)))
      = S l n (fun ps => ((n.factorial : ℝ) * (m.factorial : ℝ) / (l.map (fun x => (x.factorial : ℝ))).prod)
        * (ps.map (fun p => ((p.1 + p.2).choose p.1 : ℝ))).prod) := by
    refine S_congr (fun ps hp => ?_)
    rw [exp_lmult, exp_lmult, ← way_choose hp]
    have a1 := prod_fac_pos (ps.map Prod.fst)
    have a2 := prod_fac_pos (ps.map Prod.snd)
    have a4 : 0 < (ps.map (fun p => ((p.1 + p.2).choose p.1 : ℝ))).prod := by
      have h3 := way_choose hp
      have h5 := prod_fac_pos l
      rw [← h3] at h5
      exact (pos_iff_pos_of_mul_pos h5).mp (mul_pos a1 a2)
    field_simp
  rw [h1, S_mul, S_choose, exp_lmult, hm]
  have hc := Nat.add_choose_mul_factorial_mul_factorial n m
  have h2 : ((n + m).choose n : ℝ) * (n.factorial : ℝ) * (m.factorial : ℝ) = ((n + m).factorial : ℝ) := by
    have : (n+m).choose n * n.factorial * m.factorial = (n+m).factorial := by
      have := Nat.choose_mul_factorial_mul_factorial (Nat.le_add_right n m)
      rwa [Nat.add_sub_cancel_left] at this
    exact_mod_cast this
  rw [← h2]; ring

end Apop.Fisher
