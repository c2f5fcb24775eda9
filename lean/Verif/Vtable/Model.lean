import Verif.Base.C

/-! # The function registry (apop_vtables.c), one thread

`φ` is the type of function pointers. Locks are not modelled (see DESIGN.md for what a second thread can
do). -/

namespace Apop.Vtable

variable {φ : Type}

/-- `apop_vtable_elmt_s`, apop_vtables.c:15-18. -/
structure Elt (φ : Type) where
  hash : UInt64
  fn : φ
  deriving DecidableEq, Repr

/-- `apop_vtable_s`, apop_vtables.c:20-28: `elmts` is the whole allocated block, of which `ct` entries are in
use. -/
structure Tab (φ : Type) where
  name : UInt64
  ct : Nat
  elmts : List (Elt φ)
  deriving DecidableEq, Repr

/-- The zeroed table that ends the list. -/
def sentinel : Tab φ := ⟨0, 0, []⟩

/-- `vtable_list`: NULL or the allocated block of tables. -/
abbrev Reg (φ : Type) := Option (List (Tab φ))

/-- `find_tab`, apop_vtables.c:42-47: index of the table, or of the sentinel. -/
def findTab (h : UInt64) : List (Tab φ) → Res Nat
  | [] => .ub
  | v :: vs => if v.name = 0 then .ok 0 else if v.name = h then .ok 0 else do
      let i ← findTab h vs
      .ok (i + 1)

/-- The loops over the entries in use, apop_vtables.c:57, 98, 114: index of the first with the key;
`k` entries to go from `i`. -/
def findElt (key : UInt64) (es : List (Elt φ)) : Nat → Nat → Res (Option Nat)
  | 0, _ => .ok none
  | k + 1, i => do
    let e ← rd es i
    if key = e.hash then .ok (some i) else findElt key es k (i + 1)

/-- `memmove(elmts+i, elmts+i+1, sizeof*(ct-i))`, apop_vtables.c:59. It reads `elmts[i+1] .. elmts[ct]`,
and `elmts[ct]` may be past the block. `over` says what such a read yields: `none`, that it is undefined
behaviour; `some x`, that it yields `x`. -/
def moveDown (over : Option (Elt φ)) (es : List (Elt φ)) (i ct : Nat) : Res (List (Elt φ)) :=
  if ct < es.length then .ok (es.take i ++ (es.drop (i + 1)).take (ct - i) ++ es.drop ct)
  else match over with
    | none => .ub
    | some x => .ok (es.take i ++ (es.drop (i + 1) ++ [x]).take (ct - i) ++ es.drop ct)

/-- `apop_vtable_drop`, apop_vtables.c:51-66: new registry and return value. -/
def drop (over : Option (Elt φ)) (r : Reg φ) (tab : CStr) (key : UInt64) : Res (Reg φ × Nat) :=
  match r with
  | none => .ok (none, 1)
  | some vs => do
    let c ← findTab (djb2 tab) vs
    let v ← rd vs c
    let i ← findElt key v.elmts v.ct 0
    match i with
    | none => .ok (some vs, 1)
    | some i => do
      let es ← moveDown over v.elmts i v.ct
      let vs ← wr vs c { v with elmts := es, ct := v.ct - 1 }
      .ok (some vs, 0)

/-- `apop_vtable_add`, apop_vtables.c:68-105; `null` is the NULL function pointer of the zeroed first
entry. `realloc` keeps the entries that fit; the rest is written at once. -/
def add (null : φ) (r : Reg φ) (tab : CStr) (fn : φ) (key : UInt64) : Res (Reg φ × Nat) := do
  let vs := r.getD [sentinel]
  let c ← findTab (djb2 tab) vs
  let v ← rd vs c
  let vs := if v.name = 0 then vs.take c ++ [⟨djb2 tab, 0, [⟨0, null⟩]⟩, sentinel] else vs
  let v ← rd vs c
  let i ← findElt key v.elmts v.ct 0
  match i with
  | some _ => .ok (some vs, 0)
  | none => do
    let vs ← wr vs c { v with elmts := v.elmts.take v.ct ++ [⟨key, fn⟩], ct := v.ct + 1 }
    .ok (some vs, 0)

/-- `apop_vtable_get`, apop_vtables.c:107-118 (`none`: NULL). -/
def get (r : Reg φ) (tab : CStr) (key : UInt64) : Res (Option φ) :=
  match r with
  | none => .ok none
  | some vs => do
    let c ← findTab (djb2 tab) vs
    let v ← rd vs c
    if v.name = 0 then .ok none
    else do
      let i ← findElt key v.elmts v.ct 0
      match i with
      | none => .ok none
      | some i => do
        let e ← rd v.elmts i
        .ok (some e.fn)

/-- One call. -/
inductive Op (φ : Type) where
  | add (tab : CStr) (fn : φ) (key : UInt64)
  | drop (tab : CStr) (key : UInt64)

/-- Execute one call: registry and return value. -/
def step (null : φ) (over : Option (Elt φ)) (r : Reg φ) : Op φ → Res (Reg φ × Nat)
  | .add t f k => add null r t f k
  | .drop t k => drop over r t k

/-- Execute a history; the return values are collected. -/
def run (null : φ) (over : Option (Elt φ)) (r : Reg φ) : List (Op φ) → Res (Reg φ × List Nat)
  | [] => .ok (r, [])
  | o :: os => do
    let (r, x) ← step null over r o
    let (r, xs) ← run null over r os
    .ok (r, x :: xs)

end Apop.Vtable
