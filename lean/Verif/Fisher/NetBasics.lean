import Verif.Fisher.Network
import Verif.Fisher.Completion
import Verif.Fisher.Columns

/-! # The pieces of the network algorithm: log factorials, keys, daughters, trees -/

namespace Apop.Fisher
open Finset

theorem lf_succ (n : ℕ) : lf (n + 1) = lf n + Real.log ((n + 1 : ℕ) : ℝ) := by
  unfold lf
  rw [Nat.factorial_succ, Nat.cast_mul, Real.log_mul, add_comm]
  · exact_mod_cast Nat.succ_ne_zero n
  · exact_mod_cast n.factorial_ne_zero

/-- The table of log factorials is right, every entry. -/
theorem factC_eq : ∀ n, factC n = lf n := by
  intro n
  induction n using Nat.strong_induction_on with
  | _ n ih =>
    match n with
    | 0 => simp [factC, lf]
    | 1 => simp [factC, lf]
    | 2 => simp [factC, lf]
    | n + 3 =>
      unfold factC
      by_cases h : (n + 3) % 2 = 1
      · rw [if_pos h, ih (n + 2) (by omega), lf_succ (n + 2)]
      · rw [if_neg h, ih (n + 2) (by omega), ih _ (by omega), ih _ (by omega), lf_succ (n + 2)]
        obtain ⟨m, hm⟩ : ∃ m, (n + 3) / 2 = m + 1 := ⟨(n + 3) / 2 - 1, by omega⟩
        rw [hm, Nat.add_sub_cancel, lf_succ m]
        have h2 : n + 2 + 1 = 2 * (m + 1) := by omega
        rw [h2, Nat.cast_mul, Real.log_mul (by norm_num) (by exact_mod_cast Nat.succ_ne_zero m)]
        push_cast
        ring

theorem foldl_sub (g : ℕ → ℝ) : ∀ (l : List ℕ) (a : ℝ), l.foldl (fun d x => d - g x) a = a - (l.map g).sum := by
  intro l
  induction l with
  | nil => intro a; simp
  | cons x l ih => intro a; simp only [List.foldl_cons, ih, List.map_cons, List.sum_cons]; ring

/-- f9xact is the log of the multinomial coefficient. -/
theorem f9xact_eq (n : ℕ) (l : List ℕ) : f9xact n l = lmult n l := by
  unfold f9xact lmult
  rw [foldl_sub, factC_eq]
  have : factC = lf := funext factC_eq
  rw [this]

/-! ## Keys -/

/-- The multipliers, last first: each is the product of the earlier (row total + 1)s. -/
def prodUp : List ℕ → ℕ
  | [] => 1
  | a :: l => (a + 1) * prodUp l

/-- The multipliers of the rows `l`, given last row first; the result is last first. -/
def multRev : List ℕ → List ℕ
  | [] => []
  | _ :: l => prodUp l :: multRev l

theorem prodUp_append (a b : List ℕ) : prodUp (a ++ b) = prodUp a * prodUp b := by
  induction a with
  | nil => simp [prodUp]
  | cons x a ih => simp [prodUp, ih, Nat.mul_assoc]

theorem prodUp_reverse (a : List ℕ) : prodUp a.reverse = prodUp a := by
  induction a with
  | nil => rfl
  | cons x a ih => simp [prodUp, prodUp_append, ih, Nat.mul_comm]

theorem kyyFrom_append : ∀ (l : List ℕ) (x acc : ℕ), kyyFrom acc (l ++ [x]) = kyyFrom acc l ++ [acc * prodUp l] := by
  intro l
  induction l with
  | nil => intro x acc; simp [kyyFrom, prodUp]
  | cons a l ih => intro x acc; simp [kyyFrom, prodUp, ih, Nat.mul_assoc]

theorem kyy_reverse (l : List ℕ) : (kyyFrom 1 l.reverse).reverse = multRev l := by
  induction l with
  | nil => rfl
  | cons a l ih =>
    rw [List.reverse_cons, kyyFrom_append, List.reverse_append, ih]
    simp [multRev, prodUp_reverse]

theorem zip_sum_reverse {a b : List ℕ} (h : a.length = b.length) :
    (List.zipWith (· * ·) a b).sum = (List.zipWith (· * ·) a.reverse b.reverse).sum := by
  rw [← List.reverse_zipWith h]
  exact (List.sum_reverse _).symm

theorem length_multRev (l : List ℕ) : (multRev l).length = l.length := by
  induction l with
  | nil => rfl
  | cons a l ih => simp [multRev, ih]

/-- Mixed radix: the lower digits amount to less than the multiplier. -/
theorem digits_lt {l b : List ℕ} (h : List.Forall₂ (fun x y => y ≤ x) l b) :
    (List.zipWith (· * ·) b (multRev l)).sum < prodUp l := by
  induction h with
  | nil => simp [multRev, prodUp]
  | @cons x y l b hxy _ ih =>
    simp only [multRev, List.zipWith_cons_cons, List.sum_cons, prodUp]
    calc y * prodUp l + _ < y * prodUp l + prodUp l := by omega
      _ = (y + 1) * prodUp l := by ring
      _ ≤ _ := Nat.mul_le_mul_right _ (by omega)

theorem decodeRev_spec {l b : List ℕ} (h : List.Forall₂ (fun x y => y ≤ x) l b) :
    decodeRev (multRev l) (List.zipWith (· * ·) b (multRev l)).sum = b := by
  induction h with
  | nil => rfl
  | @cons x y l b hxy h ih =>
    cases h with
    | nil => simp [multRev, decodeRev, prodUp]
    | @cons x' y' l b hxy' h =>
      have hlt := digits_lt (List.Forall₂.cons hxy' h)
      have hm : multRev (x :: x' :: l) = prodUp (x' :: l) :: prodUp l :: multRev l := rfl
      have hm2 : multRev (x' :: l) = prodUp l :: multRev l := rfl
      rw [hm, List.zipWith_cons_cons, List.sum_cons]
      rw [hm2] at hlt ih
      unfold decodeRev
      have hd : (y * prodUp (x' :: l) + (List.zipWith (· * ·) (y' :: b) (prodUp l :: multRev l)).sum) / prodUp (x' :: l) = y := by
        rw [Nat.mul_comm, Nat.mul_add_div (by omega), Nat.div_eq_of_lt hlt, Nat.add_zero]
      rw [hd, Nat.add_sub_cancel_left, ih]

/-- f6xact recovers the row totals from their key, as long as each is no more than
the original one. -/
theorem decode_encode {iro irn : List ℕ} (h : List.Forall₂ (fun x y => y ≤ x) iro irn) :
    decode (kyyFrom 1 iro) (encode (kyyFrom 1 iro) irn) = irn := by
  have hr : List.Forall₂ (fun x y => y ≤ x) iro.reverse irn.reverse := List.forall₂_reverse_iff.mpr h
  have hk : (kyyFrom 1 iro).reverse = multRev iro.reverse := by
    have := kyy_reverse iro.reverse
    rwa [List.reverse_reverse] at this
  have hlen : (kyyFrom 1 iro).length = iro.length := by
    rw [← List.length_reverse, hk, length_multRev, List.length_reverse]
  unfold decode encode
  rw [zip_sum_reverse (by rw [hlen, h.length_eq]), hk, decodeRev_spec hr, List.reverse_reverse]

end Apop.Fisher
