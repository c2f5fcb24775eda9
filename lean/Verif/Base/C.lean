/-! # Shared vocabulary for C values (model infrastructure) -/

namespace Apop

/-- A C string: the bytes before the terminating NUL. (A list containing a `0` byte is not the
image of any C string; theorems that care say so.) -/
abbrev CStr := List UInt8

/-- Outcome of running C code: a value, or undefined behaviour (out-of-bounds or uninitialised
access, NULL dereference, use after free). -/
inductive Res (α : Type _) where
  | ok (a : α)
  | ub
  deriving DecidableEq, Repr

namespace Res
variable {α β : Type _}

protected def bind : Res α → (α → Res β) → Res β
  | ok a, f => f a
  | ub, _ => ub

protected def map (f : α → β) : Res α → Res β
  | ok a => ok (f a)
  | ub => ub

instance : Monad Res where
  pure := ok
  bind := Res.bind

@[simp] theorem pure_eq (a : α) : (pure a : Res α) = ok a := rfl
@[simp] theorem bind_ok (a : α) (f : α → Res β) : (ok a >>= f) = f a := rfl
@[simp] theorem bind_ub (f : α → Res β) : ((ub : Res α) >>= f) = ub := rfl
theorem bind_eq_ok {x : Res α} {f : α → Res β} {b : β} :
    (x >>= f) = ok b ↔ ∃ a, x = ok a ∧ f a = ok b := by
  cases x <;> simp
end Res

/-- Read element `i` of an allocated array; outside it is undefined behaviour. -/
def rd {α : Type _} (l : List α) (i : Nat) : Res α :=
  match l[i]? with
  | some a => .ok a
  | none => .ub

/-- Write element `i` of an allocated array; outside it is undefined behaviour. -/
def wr {α : Type _} (l : List α) (i : Nat) (a : α) : Res (List α) :=
  if i < l.length then .ok (l.set i a) else .ub

theorem rd_eq_ok {α : Type _} {l : List α} {i : Nat} {a : α} : rd l i = .ok a ↔ l[i]? = some a := by
  unfold rd; cases h : l[i]? <;> simp

theorem rd_of_lt {α : Type _} {l : List α} {i : Nat} (h : i < l.length) : rd l i = .ok l[i] := by
  simp [rd, h]

theorem wr_of_lt {α : Type _} {l : List α} {i : Nat} {a : α} (h : i < l.length) :
    wr l i a = .ok (l.set i a) := by simp [wr, h]

/-- `tolower` in the C locale. -/
def lower (c : UInt8) : UInt8 := if 65 ≤ c ∧ c ≤ 90 then c + 32 else c

/-- `!strcasecmp(a, b)` in the C locale: the strings are equal up to ASCII case. -/
def caseEq (a b : CStr) : Bool := a.map lower == b.map lower

theorem caseEq_iff {a b : CStr} : caseEq a b = true ↔ a.map lower = b.map lower := by
  simp [caseEq]

theorem caseEq_refl (a : CStr) : caseEq a a = true := by simp [caseEq]

theorem caseEq_comm (a b : CStr) : caseEq a b = caseEq b a := by
  simp only [caseEq, Bool.beq_comm]

theorem caseEq_trans {a b c : CStr} (h : caseEq a b = true) (h' : caseEq b c = true) :
    caseEq a c = true := by
  simp only [caseEq_iff] at *; exact h.trans h'

/-- A signed `char` converted to `unsigned long` (sign extension, as on x86-64). -/
def charToULong (c : UInt8) : UInt64 :=
  if c < 128 then c.toUInt64 else c.toUInt64 - 256

/-- The djb2 string hash: `apop_name_hash` (apop_name.m4.c:31-36) and the identical
`apop_settings_hash` (apop_settings.c:10-20); `hash = hash*33 + c` from 5381, wrapping mod 2^64. -/
def djb2 (s : CStr) : UInt64 := s.foldl (fun h c => h * 33 + charToULong c) 5381

/-- A string literal as bytes, for examples. -/
def str (s : String) : CStr := s.toUTF8.toList

/-- Outcome of a loop run with fuel or under a given schedule: a value, undefined behaviour, or not finished yet. -/
inductive Run (α : Type) where
  | done (a : α)
  | ub
  | more
  deriving DecidableEq, Repr

namespace Run
variable {α β : Type}
protected def bind : Run α → (α → Run β) → Run β
  | done a, f => f a
  | ub, _ => ub
  | more, _ => more
instance : Monad Run where
  pure := done
  bind := Run.bind
@[simp] theorem bind_done (a : α) (f : α → Run β) : (done a >>= f) = f a := rfl
@[simp] theorem bind_ub (f : α → Run β) : ((ub : Run α) >>= f) = ub := rfl
@[simp] theorem bind_more (f : α → Run β) : ((more : Run α) >>= f) = more := rfl
theorem bind_eq_done {x : Run α} {f : α → Run β} {b : β} : (x >>= f) = done b ↔ ∃ a, x = done a ∧ f a = done b := by
  cases x <;> simp
/-- A result without fuel. -/
def ofRes : Res α → Run α
  | .ok a => done a
  | .ub => ub
@[simp] theorem ofRes_ok (a : α) : ofRes (.ok a) = done a := rfl
@[simp] theorem ofRes_ub : ofRes (.ub : Res α) = ub := rfl
end Run

end Apop
