import Verif.Base.C

/-! # Model of apop_name.m4.c -/

namespace Apop

/-- `apop_name` (apop.m4.h): title, vector name and three counted lists of strings, each with a
parallel heap block of hashes. `colct` etc. are the lengths of the lists. A hash block is a list of
words, `none` marking a word that `realloc` made available but nobody wrote; an empty block stands
for the NULL pointer (a block is only ever (re)allocated to a positive size). -/
structure Names where
  title : Option CStr := none
  vector : Option CStr := none
  col : List CStr := []
  row : List CStr := []
  text : List CStr := []
  colhash : List (Option UInt64) := []
  rowhash : List (Option UInt64) := []
  texthash : List (Option UInt64) := []
  deriving DecidableEq, Repr

namespace Names

/-- `apop_name_alloc`, apop_name.m4.c:23-28 (malloc failure not modelled). -/
def alloc : Names := {}

/-- `realloc(block, ct*sizeof(unsigned long)); block[ct-1] = h;` (apop_name.m4.c:67-68, 76-77, 88-89):
keeps what fits, leaves new words uninitialised, writes the last. -/
def growHash (block : List (Option UInt64)) (ct : Nat) (h : UInt64) : List (Option UInt64) :=
  (block ++ List.replicate (ct - block.length) none).take (ct - 1) ++ [some h]

/-- `apop_name_add`, apop_name.m4.c:49-91. Returns the new structure and the C return value.
`add_me == NULL` is `none`. Precondition of the C code: `add_me` does not alias `n->title`/`n->vector`. -/
def add (n : Names) (s : Option CStr) (type : Char) : Names × Int :=
  match s with
  | none => (n, -1)
  | some s =>
    if type = 'h' then ({ n with title := some s }, 1)
    else if type = 'v' then ({ n with vector := some s }, 1)
    else if type = 'r' then
      let ct := n.row.length + 1
      ({ n with row := n.row ++ [s], rowhash := growHash n.rowhash ct (djb2 s) }, ct)
    else if type = 't' then
      let ct := n.text.length + 1
      ({ n with text := n.text ++ [s], texthash := growHash n.texthash ct (djb2 s) }, ct)
    else
      let ct := n.col.length + 1
      ({ n with col := n.col ++ [s], colhash := growHash n.colhash ct (djb2 s) }, ct)

/-- The loop `for (i=0; i<ct; i++) apop_name_add(n1, nadd->list[i], type1)` of `apop_name_stack`
(apop_name.m4.c:163-171) when `nadd` is a different object: `src` is fixed. -/
def addAll (n1 : Names) (src : List CStr) (type1 : Char) : Names :=
  src.foldl (fun n s => (n.add (some s) type1).1) n1

/-- The same loop when `nadd` and `n1` are the same object: each iteration re-reads element `i`
from the growing list `sel n`; `fuel` = the saved count minus `i`. -/
def addSelf (sel : Names → List CStr) (type1 : Char) : Nat → Nat → Names → Res Names
  | 0, _, n => .ok n
  | k + 1, i, n => do
    let s ← rd (sel n) i
    addSelf sel type1 k (i + 1) (n.add (some s) type1).1

/-- Default for the omitted/zero character arguments, apop_name.m4.c:156-157 (`apop_varad_var`
treats 0 as "not given"): type1 defaults to 'r', typeadd to type1. -/
def stackTypes (type1 typeadd : Option Char) : Char × Char :=
  let t1 := type1.getD 'r'
  (t1, typeadd.getD t1)

/-- `apop_name_stack(n1, nadd, type1, typeadd)` with `nadd` a different object (or NULL),
apop_name.m4.c:151-174. -/
def stack (n1 : Names) (nadd : Option Names) (type1 : Option Char) (typeadd : Option Char) : Names :=
  match nadd with
  | none => n1
  | some nadd =>
    let (t1, ta) := stackTypes type1 typeadd
    if ta = 'v' then (n1.add nadd.vector 'v').1
    else if ta = 'r' then n1.addAll nadd.row t1
    else if ta = 't' then n1.addAll nadd.text t1
    else if ta = 'c' then n1.addAll nadd.col t1
    else n1

/-- `apop_name_stack(n, n, type1, typeadd)`: the self-stacking case that the saved `counts`
(apop_name.m4.c:160) exist for. With typeadd 'v' the code calls `realloc(n->vector, ..)` and then
copies from the old, possibly freed, `n->vector` (lines 58-59): undefined unless the name is NULL. -/
def stackSelf (n : Names) (type1 : Option Char) (typeadd : Option Char) : Res Names :=
  let (t1, ta) := stackTypes type1 typeadd
  if ta = 'v' then (match n.vector with | none => .ok n | some _ => .ub)
  else if ta = 'r' then addSelf Names.row t1 n.row.length 0 n
  else if ta = 't' then addSelf Names.text t1 n.text.length 0 n
  else if ta = 'c' then addSelf Names.col t1 n.col.length 0 n
  else .ok n

/-- What `asprintf(&p, "%s", s)` stores: for NULL, glibc prints `(null)` (strictly, ISO C leaves it
undefined; we model the platform the library targets). -/
def printS : Option CStr → CStr
  | some s => s
  | none => [40, 110, 117, 108, 108, 41]

/-- `apop_name_copy`, apop_name.m4.c:190-198. Line 196 prints `in->title` with `"%s"`. -/
def copy (inn : Names) : Names :=
  let out := alloc
  let out := out.stack (some inn) (some 'v') none
  let out := out.stack (some inn) (some 'c') none
  let out := out.stack (some inn) (some 'r') none
  let out := out.stack (some inn) (some 't') none
  { out with title := some (printS inn.title) }

/-- First pass of `apop_name_find`, apop_name.m4.c:230-235: hash equal and `strcasecmp` equal.
Reading past the hash block, or an unwritten word, is undefined. `i` is the running index. -/
def hashPass (name : CStr) : List CStr → List (Option UInt64) → Nat → Res (Option Nat)
  | [], _, _ => .ok none
  | _ :: _, [], _ => .ub
  | _ :: _, none :: _, _ => .ub
  | s :: ss, some h :: hs, i =>
    if djb2 name = h ∧ caseEq name s then .ok (some i) else hashPass name ss hs (i + 1)

/-- Second pass, apop_name.m4.c:238-239. -/
def plainPass (name : CStr) : List CStr → Nat → Option Nat
  | [], _ => none
  | s :: ss, i => if caseEq name s then some i else plainPass name ss (i + 1)

/-- The list searched for a type character, apop_name.m4.c:214-228. -/
def listFor (n : Names) (type : Char) : List CStr :=
  if type = 'r' ∨ type = 'R' then n.row
  else if type = 't' ∨ type = 'T' then n.text
  else n.col

/-- The hash block searched for a type character, apop_name.m4.c:214-228. -/
def hashFor (n : Names) (type : Char) : List (Option UInt64) :=
  if type = 'r' ∨ type = 'R' then n.rowhash
  else if type = 't' ∨ type = 'T' then n.texthash
  else n.colhash

/-- `if (listh) {...}`, apop_name.m4.c:230-235: the hash pass is skipped for a NULL block. -/
def hashFirst (n : Names) (name : CStr) (type : Char) : Res (Option Nat) :=
  if (n.hashFor type).isEmpty then .ok none
  else hashPass name (n.listFor type) (n.hashFor type) 0

/-- `apop_name_find`, apop_name.m4.c:209-243 (`name == NULL` is `none`). -/
def find (n : Names) (name : Option CStr) (type : Char) : Res Int :=
  match name with
  | none => .ok (-2)
  | some name => do
    let first ← n.hashFirst name type
    match first with
    | some i => .ok (i : Int)
    | none =>
      match plainPass name (n.listFor type) 0 with
      | some i => .ok (i : Int)
      | none =>
        match n.vector with
        | some v => if (type = 'c' ∨ type = 'C') ∧ caseEq name v then .ok (-1) else .ok (-2)
        | none => .ok (-2)

end Names
end Apop
