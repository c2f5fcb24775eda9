import Mathlib.Data.List.Sort
import Mathlib.Tactic.Ring
import Mathlib.Tactic.Linarith

/-!
# `isort` (apop_fexact.c:1731-1803)

Quicksort with an explicit stack of ten segments (`il[10]`, `iu[10]`). The larger part
of every segment is put on the stack, and the smaller one is sorted first. An eleventh
pending segment makes it give up ("This should never occur").

The vector is a function on positions `1..n` (the code decrements `ix`); reading or
writing any other position is the outcome `ub`. The static variables are written before
they are read in each call, so calls do not see each other (single thread).
-/

namespace Apop.Fisher.Isort

/-- Outcomes: sorted (`ok`), a read or write outside the vector (`ub`), the message of
line 1794 (`err`, with the vector as it is then), or more steps are needed. -/
inductive Out (α : Type) where
  | ok (a : α)
  | ub
  | err (a : α)
  | more

/-- Is position `i` inside the vector? -/
def inb (n i : ℕ) : Bool := 1 ≤ i && i ≤ n

/-- Exchange of two elements (apop_fexact.c:1770-1773 and 1776-1778). -/
def swap (a : ℕ → ℤ) (i j : ℕ) : ℕ → ℤ := fun k => if k = i then a j else if k = j then a i else a k

/-- L20 (apop_fexact.c:1758-1762): `++i` while `i < j` and `ix[ikey] > ix[i]`. `none` is a
read outside the vector. -/
def up (n : ℕ) (a : ℕ → ℤ) (key i j : ℕ) : Option ℕ :=
  if i + 1 < j then
    if inb n key && inb n (i + 1) then
      if a key > a (i + 1) then up n a key (i + 1) j else some (i + 1)
    else none
  else some (i + 1)
termination_by j - i

/-- L30 (apop_fexact.c:1764-1768): `--j` while `ix[j] > ix[ikey]`. -/
def down (n : ℕ) (a : ℕ → ℤ) (key : ℕ) : ℕ → Option ℕ
  | 0 => none
  | j + 1 =>
    if inb n j && inb n key then
      if a j > a key then down n a key j else some j
    else none

theorem up_gt {n a key} : ∀ {i j i'}, up n a key i j = some i' → i < i' := by
  intro i j
  induction h : j - i using Nat.strong_induction_on generalizing i with
  | _ d ih =>
    intro i' hi
    rw [up] at hi
    by_cases h1 : i + 1 < j
    · rw [if_pos h1] at hi
      split at hi
      · split at hi
        · have := ih (j - (i + 1)) (by omega) rfl hi
          omega
        · simp at hi; omega
      · simp at hi
    · rw [if_neg h1] at hi
      simp at hi; omega

theorem down_lt {n a key} : ∀ {j j'}, down n a key j = some j' → j' < j := by
  intro j
  induction j with
  | zero => intro j' h; simp [down] at h
  | succ j ih =>
    intro j' h
    rw [down] at h
    split at h
    · split at h
      · have := ih h; omega
      · simp at h; omega
    · simp at h

/-- Both scans and the exchange, repeated until `i ≥ j` (apop_fexact.c:1758-1774): the
vector and the final `j`. -/
def part (n : ℕ) (a : ℕ → ℤ) (key i j : ℕ) : Option ((ℕ → ℤ) × ℕ) :=
  match hi : up n a key i j with
  | none => none
  | some i' =>
    match hj : down n a key j with
    | none => none
    | some j' =>
      if i' < j' then
        if inb n i' && inb n j' then part n (swap a i' j') key i' j' else none
      else some (a, j')
termination_by j - i
decreasing_by
  have := up_gt hi
  have := down_lt hj
  omega

/-- The main loop from L10 (apop_fexact.c:1750-1802) with the current segment `i..j`; the
stack holds the `m - 1` pending segments, so `m < 11` is a stack shorter than ten. One
unit of fuel is one arrival at L10. -/
def run (n : ℕ) : ℕ → ℕ → ℕ → List (ℕ × ℕ) → (ℕ → ℤ) → Out (ℕ → ℤ)
  | 0, _, _, _, _ => .more
  | fuel + 1, i, j, stk, a =>
    if i ≥ j then
      match stk with
      | [] => .ok a
      | (il, iu) :: stk' => run n fuel il iu stk' a
    else
      match part n a i i (j + 1) with
      | none => .ub
      | some (a', p) =>
        if inb n i && inb n p then
          if stk.length + 1 < 11 then
            if p - i < j - p then run n fuel i (p - 1) ((p + 1, j) :: stk) (swap a' i p)
            else run n fuel (p + 1) j ((i, p - 1) :: stk) (swap a' i p)
          else .err (swap a' i p)
        else .ub

/-- The list in positions `1..n` as a vector. -/
def vec (l : List ℤ) : ℕ → ℤ := fun k => l.getD (k - 1) 0

/-- Positions `1..n` of a vector as a list. -/
def unvec (n : ℕ) (a : ℕ → ℤ) : List ℤ := (List.range n).map (fun k => a (k + 1))

/-- The list left by an outcome. -/
def Out.list (n : ℕ) : Out (ℕ → ℤ) → Out (List ℤ)
  | .ok a => .ok (unvec n a)
  | .ub => .ub
  | .err a => .err (unvec n a)
  | .more => .more

/-- `isort(&n, ix)` (apop_fexact.c:1731-1803) stopped after `fuel` arrivals at L10. -/
def isort (fuel : ℕ) (l : List ℤ) : Out (List ℤ) :=
  (run l.length fuel 1 l.length [] (vec l)).list l.length

end Apop.Fisher.Isort
