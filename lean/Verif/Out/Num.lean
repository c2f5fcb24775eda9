import Verif.Base.C
import Mathlib.Data.Rat.Floor
import Mathlib.Algebra.Order.Round
import Mathlib.Tactic.Linarith
import Mathlib.Tactic.Ring
import Mathlib.Tactic.FieldSimp
import Mathlib.Tactic.NormNum

/-! # Numbers as printed and as read

`p_fn` of apop_output.m4.c, and the decimals that `strtod` reads. A double is a rational number, or none: NaN or infinite. Arithmetic is exact; that the decimal
read is rounded to the nearest double is left out. -/

namespace Apop.Out

/-- A double: `none` is NaN or infinite. -/
abbrev Num := Option ℚ

/-- The character of a digit. -/
def dig (n : Nat) : UInt8 := UInt8.ofNat (48 + n % 10)

/-- The decimal digits of a number, at least one. -/
def digits (n : Nat) : CStr := if n < 10 then [dig n] else digits (n / 10) ++ [dig n]
termination_by n

/-- The last `k` decimal digits. -/
def lastDigits : Nat → Nat → CStr
  | 0, _ => []
  | k + 1, n => lastDigits k (n / 10) ++ [dig n]

/-- The sign that the flag ' ' asks for. -/
def sign (neg : Bool) : UInt8 := if neg then 45 else 32

/-- Blanks before a string that is shorter than `w`: the width of a printf format. -/
def padLeft (w : Nat) (s : CStr) : CStr := List.replicate (w - s.length) 32 ++ s

/-- `printf("% 5i", n)`, by its definition in C. -/
def fmtInt (n : Int) : CStr := padLeft 5 (sign (n < 0) :: digits n.natAbs)

/-- To the nearest whole number, halves to the even one. -/
def roundEven (x : ℚ) : Int :=
  if x - ⌊x⌋ < 1 / 2 then ⌊x⌋
  else if 1 / 2 < x - ⌊x⌋ then ⌊x⌋ + 1
  else if ⌊x⌋ % 2 = 0 then ⌊x⌋ else ⌊x⌋ + 1

/-- `printf("% 5f", x)`, by its definition in C: six digits after the point, the number rounded to these. -/
def fmtFix (x : ℚ) : CStr :=
  padLeft 5 (sign (x < 0) :: (digits ((roundEven (|x| * 1000000)).natAbs / 1000000) ++ 46 :: lastDigits 6 (roundEven (|x| * 1000000)).natAbs))

/-- `(int) x`: towards zero; no value outside of the range of int (there C leaves it undefined), nor for NaN and infinities. -/
def toInt : Num → Res Int
  | none => .ub
  | some x => if -2147483649 < x ∧ x < 2147483648 then .ok (if x < 0 then -⌊-x⌋ else ⌊x⌋) else .ub

/-- `p_fn`, apop_output.m4.c:177-180. -/
def pFn (x : Num) : Res CStr :=
  match toInt x, x with
  | .ok n, some x => if x = n then .ok (fmtInt n) else .ok (fmtFix x)
  | _, _ => .ub

/-! ## Reading -/

/-- A digit. -/
def isDig (c : UInt8) : Bool := 48 ≤ c && c ≤ 57

/-- The number that digits stand for. -/
def natOf (s : CStr) : Nat := s.foldl (fun a c => a * 10 + (c.toNat - 48)) 0

/-- An unsigned decimal: digits, and a point and digits if there is one. -/
def readPos (s : CStr) : Option ℚ :=
  match s.dropWhile isDig with
  | [] => if s = [] then none else some (natOf s)
  | c :: r => if c = 46 ∧ r.all isDig ∧ s.takeWhile isDig ≠ [] then some (natOf (s.takeWhile isDig ++ r) / 10 ^ r.length) else none

/-- What `strtod` makes of a decimal, and `none` (NaN, as text is read) for anything else. Exponents, hexadecimals and the names of infinities are left out:
`p_fn` writes none of them. -/
def readDec (s : CStr) : Num :=
  match s with
  | 45 :: r => (readPos r).map (fun x => -x)
  | r => readPos r

/-! ## What is printed is read -/

theorem dig_toNat (n : Nat) : (dig n).toNat = 48 + n % 10 := by
  unfold dig
  rw [UInt8.toNat_ofNat']
  omega

theorem dig_isDig (n : Nat) : isDig (dig n) = true := by
  have := dig_toNat n
  unfold isDig
  simp only [Bool.and_eq_true, decide_eq_true_eq, UInt8.le_iff_toNat_le, this]
  constructor
  · show 48 ≤ _; omega
  · show _ ≤ 57; omega

theorem natOf_snoc (s : CStr) (c : UInt8) : natOf (s ++ [c]) = natOf s * 10 + (c.toNat - 48) := by simp [natOf]

theorem natOf_digits (n : Nat) : natOf (digits n) = n := by
  induction n using Nat.strongRecOn with
  | ind n ih =>
    rw [digits]
    split
    · simp only [natOf, List.foldl_cons, List.foldl_nil, dig_toNat]; omega
    · rw [natOf_snoc, ih (n / 10) (by omega), dig_toNat]; omega

theorem digits_all (n : Nat) : (digits n).all isDig = true := by
  induction n using Nat.strongRecOn with
  | ind n ih =>
    rw [digits]
    split
    · simp [dig_isDig]
    · rw [List.all_append, ih (n / 10) (by omega)]; simp [dig_isDig]

theorem digits_ne (n : Nat) : digits n ≠ [] := by
  rw [digits]; split <;> simp

theorem lastDigits_all : ∀ (k n : Nat), (lastDigits k n).all isDig = true
  | 0, _ => rfl
  | k + 1, n => by rw [lastDigits, List.all_append, lastDigits_all k]; simp [dig_isDig]

theorem lastDigits_length : ∀ (k n : Nat), (lastDigits k n).length = k
  | 0, _ => rfl
  | k + 1, n => by rw [lastDigits, List.length_append, lastDigits_length k]; rfl

theorem natOf_last (s : CStr) : ∀ (k n : Nat), natOf (s ++ lastDigits k n) = natOf s * 10 ^ k + n % 10 ^ k
  | 0, n => by simp [lastDigits, Nat.mod_one]
  | k + 1, n => by
    rw [lastDigits, ← List.append_assoc, natOf_snoc, natOf_last s k (n / 10), dig_toNat, pow_succ]
    have h1 : n % (10 ^ k * 10) = 10 * (n / 10 % 10 ^ k) + n % 10 := by
      rw [Nat.mul_comm, Nat.mod_mul]; omega
    rw [h1]
    have : 48 + n % 10 - 48 = n % 10 := by omega
    rw [this]
    ring

theorem takeDrop_all {s : CStr} (h : s.all isDig = true) (r : CStr) : (s ++ r).takeWhile isDig = s ++ r.takeWhile isDig ∧ (s ++ r).dropWhile isDig = r.dropWhile isDig := by
  induction s with
  | nil => simp
  | cons c s ih =>
    simp only [List.all_cons, Bool.and_eq_true] at h
    simp [h.1, ih h.2]

theorem readPos_digits (n : Nat) : readPos (digits n) = some (n : ℚ) := by
  have h := takeDrop_all (digits_all n) []
  simp only [List.append_nil, List.takeWhile_nil, List.dropWhile_nil] at h
  unfold readPos
  rw [h.2]
  simp [digits_ne, natOf_digits]

theorem readPos_fix (m : Nat) : readPos (digits (m / 1000000) ++ 46 :: lastDigits 6 m) = some ((m : ℚ) / 1000000) := by
  have h := takeDrop_all (digits_all (m / 1000000)) (46 :: lastDigits 6 m)
  have h46 : isDig 46 = false := by decide
  simp only [List.takeWhile_cons, List.dropWhile_cons, h46, Bool.false_eq_true, if_false, List.append_nil] at h
  unfold readPos
  rw [h.2]
  simp only [h.1, lastDigits_all, digits_ne, lastDigits_length, natOf_last, natOf_digits, ne_eq, not_false_eq_true, and_self, if_true]
  norm_num
  have : (m / 1000000 * 1000000 + m % 1000000 : Nat) = m := by omega
  exact_mod_cast this

/-- Blanks cut off at both ends. -/
def strip (s : CStr) : CStr := ((s.dropWhile (· ∈ [(9 : UInt8), 13, 32])).reverse.dropWhile (· ∈ [(9 : UInt8), 13, 32])).reverse

/-- A string whose first and last characters are no blanks (or with none). -/
def Tight (s : CStr) : Prop := strip s = s

theorem isDig_notWhite {c : UInt8} (h : isDig c = true) : c ∉ [(9 : UInt8), 13, 32] := by
  simp only [isDig, Bool.and_eq_true, decide_eq_true_eq] at h
  simp only [List.mem_cons, List.not_mem_nil, or_false, not_or]
  refine ⟨?_, ?_, ?_⟩ <;> rintro rfl <;> revert h <;> decide

theorem dropWhile_blanks (n : Nat) (s : CStr) : (List.replicate n 32 ++ s).dropWhile (· ∈ [(9 : UInt8), 13, 32]) = s.dropWhile (· ∈ [(9 : UInt8), 13, 32]) := by
  induction n with
  | zero => simp
  | succ n ih =>
    have : List.replicate (n + 1) (32 : UInt8) ++ s = 32 :: (List.replicate n 32 ++ s) := by simp [List.replicate_succ]
    rw [this, List.dropWhile_cons_of_pos (by decide), ih]

theorem strip_pad (w : Nat) (s : CStr) : strip (padLeft w s) = strip s := by
  unfold strip padLeft
  rw [dropWhile_blanks]

theorem strip_blank (s : CStr) : strip (32 :: s) = strip s := by
  unfold strip
  rw [List.dropWhile_cons_of_pos (by decide)]

/-- A string that begins and ends with characters that are no blanks is not changed. -/
theorem strip_tight {c d : UInt8} {s t : CStr} (h : s = c :: t) (hc : c ∉ [(9 : UInt8), 13, 32]) (hl : s.getLast? = some d) (hd : d ∉ [(9 : UInt8), 13, 32]) : strip s = s := by
  unfold strip
  have h1 : s.dropWhile (· ∈ [(9 : UInt8), 13, 32]) = s := by
    rw [h, List.dropWhile_cons_of_neg (by simpa using hc)]
  rw [h1]
  have h2 : s.reverse.dropWhile (· ∈ [(9 : UInt8), 13, 32]) = s.reverse := by
    rw [List.getLast?_eq_head?_reverse] at hl
    cases hr : s.reverse with
    | nil => rfl
    | cons e r =>
      rw [hr] at hl
      simp only [List.head?_cons, Option.some.injEq] at hl
      subst hl
      rw [List.dropWhile_cons_of_neg (by simpa using hd)]
  rw [h2, List.reverse_reverse]

theorem digits_last (n : Nat) : (digits n).getLast? = some (dig n) := by
  rw [digits]; split <;> simp

theorem digits_head (n : Nat) : ∃ c t, digits n = c :: t ∧ isDig c = true := by
  cases h : digits n with
  | nil => exact absurd h (digits_ne n)
  | cons c t =>
    have := digits_all n
    rw [h] at this
    simp only [List.all_cons, Bool.and_eq_true] at this
    exact ⟨c, t, rfl, this.1⟩

theorem strip_sign (neg : Bool) (c d : UInt8) (t s : CStr) (hs : s = c :: t) (hc : isDig c = true) (hl : s.getLast? = some d) (hd : isDig d = true) :
    strip (sign neg :: s) = if neg then 45 :: s else s := by
  cases neg with
  | false =>
    simp only [sign, Bool.false_eq_true, if_false]
    rw [strip_blank]
    exact strip_tight hs (isDig_notWhite hc) hl (isDig_notWhite hd)
  | true =>
    simp only [sign, if_true]
    refine strip_tight rfl (by decide) (d := d) ?_ (isDig_notWhite hd)
    rw [hs] at hl ⊢
    simpa using hl

theorem readDec_sign (neg : Bool) (s : CStr) (h : ∃ c t, s = c :: t ∧ isDig c = true) : readDec (if neg then 45 :: s else s) = (readPos s).map (fun x => if neg then -x else x) := by
  cases neg with
  | true => rfl
  | false =>
    obtain ⟨c, t, rfl, hc⟩ := h
    have h45 : c ≠ 45 := by rintro rfl; revert hc; decide
    simp only [Bool.false_eq_true, if_false]
    unfold readDec
    split
    · rename_i heq; simp only [List.cons.injEq] at heq; exact absurd heq.1 h45
    · cases readPos (c :: t) <;> rfl

theorem strip_fmtInt (n : Int) : strip (fmtInt n) = if n < 0 then 45 :: digits n.natAbs else digits n.natAbs := by
  unfold fmtInt
  obtain ⟨c, t, h1, h2⟩ := digits_head n.natAbs
  rw [strip_pad, strip_sign _ c _ t _ h1 h2 (digits_last _) (dig_isDig _)]
  simp

theorem fmtInt_read (n : Int) : readDec (strip (fmtInt n)) = some (n : ℚ) := by
  rw [strip_fmtInt]
  have := readDec_sign (decide (n < 0)) _ (digits_head n.natAbs)
  simp only [decide_eq_true_eq] at this
  rw [this, readPos_digits]
  simp only [Option.map_some, Option.some.injEq]
  have ha : ((n.natAbs : Nat) : ℚ) = |(n : ℚ)| := by
    rw [← Int.cast_natCast, Int.natCast_natAbs, Int.cast_abs]
  rw [ha]
  split
  · rename_i h
    have : (n : ℚ) < 0 := by exact_mod_cast h
    rw [abs_of_neg this, neg_neg]
  · rename_i h
    exact abs_of_nonneg (by exact_mod_cast (not_lt.1 h))

theorem lastDigits_snoc (k n : Nat) (hk : k ≠ 0) : ∃ t, lastDigits k n = t ++ [dig n] := by
  obtain ⟨k, rfl⟩ := Nat.exists_eq_succ_of_ne_zero hk
  exact ⟨_, rfl⟩

theorem strip_fmtFix (x : ℚ) : strip (fmtFix x) =
    if x < 0 then 45 :: (digits ((roundEven (|x| * 1000000)).natAbs / 1000000) ++ 46 :: lastDigits 6 (roundEven (|x| * 1000000)).natAbs)
    else digits ((roundEven (|x| * 1000000)).natAbs / 1000000) ++ 46 :: lastDigits 6 (roundEven (|x| * 1000000)).natAbs := by
  unfold fmtFix
  generalize (roundEven (|x| * 1000000)).natAbs = m
  obtain ⟨c, t, h1, h2⟩ := digits_head (m / 1000000)
  obtain ⟨u, hu⟩ := lastDigits_snoc 6 m (by decide)
  rw [strip_pad, strip_sign _ c (dig m) (t ++ 46 :: lastDigits 6 m) _ (by rw [h1]; rfl) h2 (by
    have : digits (m / 1000000) ++ 46 :: lastDigits 6 m = (digits (m / 1000000) ++ 46 :: u) ++ [dig m] := by rw [hu]; simp
    rw [this, List.getLast?_append]
    simp) (dig_isDig _)]
  simp

theorem fmtFix_read (x : ℚ) : readDec (strip (fmtFix x)) =
    some (if x < 0 then -(((roundEven (|x| * 1000000)).natAbs : ℚ) / 1000000) else ((roundEven (|x| * 1000000)).natAbs : ℚ) / 1000000) := by
  rw [strip_fmtFix]
  generalize (roundEven (|x| * 1000000)).natAbs = m
  obtain ⟨c, t, h1, h2⟩ := digits_head (m / 1000000)
  have := readDec_sign (decide (x < 0)) (digits (m / 1000000) ++ 46 :: lastDigits 6 m) ⟨c, t ++ 46 :: lastDigits 6 m, by rw [h1]; rfl, h2⟩
  simp only [decide_eq_true_eq] at this
  rw [this, readPos_fix]
  simp

/-! ## Rounding -/

theorem roundEven_close (x : ℚ) : |(roundEven x : ℚ) - x| ≤ 1 / 2 := by
  have h1 := Int.floor_le x
  have h2 := Int.lt_floor_add_one x
  unfold roundEven
  rw [abs_le]
  split
  · constructor <;> linarith
  · split
    · push_cast; constructor <;> linarith
    · split
      · constructor <;> linarith
      · push_cast; constructor <;> linarith

theorem roundEven_int (n : Int) : roundEven (n : ℚ) = n := by
  unfold roundEven
  simp

theorem roundEven_nonneg {x : ℚ} (h : 0 ≤ x) : 0 ≤ roundEven x := by
  have := Int.floor_nonneg.2 h
  unfold roundEven
  split
  · exact this
  · split
    · omega
    · split
      · exact this
      · omega

/-- What is read of a number printed with `%f`. -/
def readBack (x : ℚ) : ℚ := if x < 0 then -((roundEven (|x| * 1000000) : ℚ) / 1000000) else (roundEven (|x| * 1000000) : ℚ) / 1000000

theorem natAbs_round (x : ℚ) : ((roundEven (|x| * 1000000)).natAbs : ℚ) = roundEven (|x| * 1000000) := by
  have h : 0 ≤ roundEven (|x| * 1000000) := roundEven_nonneg (by positivity)
  rw [← Int.cast_natCast, Int.natAbs_of_nonneg h]

theorem readBack_close (x : ℚ) : |readBack x - x| ≤ 1 / 2000000 := by
  have h := roundEven_close (|x| * 1000000)
  rw [abs_le] at h
  unfold readBack
  rw [abs_le]
  split
  · rename_i hx
    rw [abs_of_neg hx] at h ⊢
    constructor <;> linarith
  · rename_i hx
    rw [abs_of_nonneg (not_lt.1 hx)] at h ⊢
    constructor <;> linarith

theorem readBack_exact (x : ℚ) (h : ∃ n : Int, x * 1000000 = n) : readBack x = x := by
  obtain ⟨n, h⟩ := h
  unfold readBack
  split
  · rename_i hx
    rw [abs_of_neg hx]
    have : -x * 1000000 = ((-n : Int) : ℚ) := by push_cast; linarith
    rw [this, roundEven_int]
    push_cast
    linarith
  · rename_i hx
    rw [abs_of_nonneg (not_lt.1 hx), h, roundEven_int]
    linarith

/-- The numbers that can be printed: those that fit an int when cut off. -/
def InRange (x : ℚ) : Prop := -2147483649 < x ∧ x < 2147483648

theorem toInt_ok (x : ℚ) (h : InRange x) : toInt (some x) = .ok (if x < 0 then -⌊-x⌋ else ⌊x⌋) := if_pos h

/-- What `p_fn` writes of a number in range. -/
theorem pFn_eq (x : ℚ) (h : InRange x) : (∃ n : Int, x = n ∧ pFn (some x) = .ok (fmtInt n)) ∨ pFn (some x) = .ok (fmtFix x) := by
  unfold pFn
  rw [toInt_ok x h]
  generalize (if x < 0 then -⌊-x⌋ else ⌊x⌋) = n
  simp only
  split
  · rename_i he; exact Or.inl ⟨_, he, rfl⟩
  · exact Or.inr rfl

/-- `p_fn` of a number in range writes a decimal that is read as this. -/
theorem pFn_read (x : ℚ) (h : InRange x) : ∃ s, pFn (some x) = .ok s ∧ readDec (strip s) = some (readBack x) := by
  rcases pFn_eq x h with ⟨n, hn, he⟩ | he
  · exact ⟨_, he, by rw [fmtInt_read, readBack_exact x ⟨n * 1000000, by rw [hn]; push_cast; rfl⟩, hn]⟩
  · exact ⟨_, he, by rw [fmtFix_read, natAbs_round]; rfl⟩

/-- The characters numbers are printed with. -/
def numChar (c : UInt8) : Bool := isDig c || c == 32 || c == 45 || c == 46

theorem padLeft_all (w : Nat) {s : CStr} (h : s.all numChar = true) : (padLeft w s).all numChar = true := by
  rw [padLeft, List.all_append, h, Bool.and_true, List.all_eq_true]
  intro x hx
  rw [List.eq_of_mem_replicate hx]
  decide

theorem numChar_all {s : CStr} (h : s.all isDig = true) : s.all numChar = true := by
  rw [List.all_eq_true] at *
  intro x hx
  simp [numChar, h x hx]

theorem sign_char (b : Bool) : numChar (sign b) = true := by cases b <;> decide

theorem pFn_chars (x : ℚ) (h : InRange x) : ∃ s, pFn (some x) = .ok s ∧ s.all numChar = true ∧ strip s ≠ [] := by
  rcases pFn_eq x h with ⟨n, hn, he⟩ | he
  · refine ⟨_, he, ?_, ?_⟩
    · apply padLeft_all
      rw [List.all_cons, sign_char, Bool.true_and]
      exact numChar_all (digits_all _)
    · rw [strip_fmtInt]
      split
      · simp
      · exact digits_ne _
  · refine ⟨_, he, ?_, ?_⟩
    · apply padLeft_all
      rw [List.all_cons, sign_char, Bool.true_and, List.all_append, numChar_all (digits_all _), List.all_cons, numChar_all (lastDigits_all _ _)]
      decide
    · rw [strip_fmtFix]
      split <;> simp

/-- Printed and read back: 3, -12, 0.5 and one third. -/
example : pFn (some 3) = .ok (str "    3") ∧ pFn (some (-12)) = .ok (str "  -12") ∧ pFn (some (1 / 2)) = .ok (str " 0.500000") ∧
    pFn (some (1 / 3)) = .ok (str " 0.333333") ∧ readDec (str "0.333333") = some (333333 / 1000000) := by decide +kernel

end Apop.Out
