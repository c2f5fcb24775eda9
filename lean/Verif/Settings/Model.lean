import Verif.Base.C

/-! # Settings groups (apop_settings.c; `apop_model_copy`, apop_model.m4.c:156-183)

`γ` is what a `setting_group` pointer points to. The free function's only modelled effect is to record the
group in the list of freed groups; every group has one (the macros always give one; with a NULL
`free`, `apop_settings_remove_group` calls NULL). The copy function `cp` is that of the group type. -/

namespace Apop.Settings

/-- `apop_settings_type`, apop.m4.h:85-91, without the two function pointers. -/
structure Entry (γ : Type) where
  name : CStr
  hash : UInt64
  group : Option γ
  deriving DecidableEq, Repr

/-- The part of `apop_model` that matters here: the settings array (`none`: NULL; the list is the
whole allocated block, also what is behind the sentinel) and the error flag. -/
structure Mod (γ : Type) where
  settings : Option (List (Entry γ)) := none
  error : Option Char := none
  deriving DecidableEq, Repr

variable {γ : Type}

/-- The entry `(apop_settings_type) { }` that ends the array. -/
def sentinel : Entry γ := ⟨[], 0, none⟩

/-- Scan up to the entry with the empty name (the loops at apop_settings.c:9, 31, 73, 101); reading past the
block is undefined. -/
def scan (es : List (Entry γ)) : Res (List (Entry γ)) :=
  match es with
  | [] => .ub
  | e :: es => if e.name = [] then .ok [] else do
      let l ← scan es
      .ok (e :: l)

/-- `get_settings_ct`, apop_settings.c:6-11. -/
def count (m : Mod γ) : Res Nat :=
  match m.settings with
  | none => .ok 0
  | some es => do
    let l ← scan es
    .ok l.length

/-- The loop of `apop_settings_get_grp`, apop_settings.c:73-75: stops at the first match. -/
def lookup (h : UInt64) : List (Entry γ) → Res (Option γ)
  | [] => .ub
  | e :: es => if e.name = [] then .ok none else if h = e.hash then .ok e.group else lookup h es

/-- `apop_settings_get_grp(m, type, 'c')`, apop_settings.c:67-78, for a model that is not NULL. -/
def get (m : Mod γ) (type : CStr) : Res (Option γ) :=
  match m.settings with
  | none => .ok none
  | some es => lookup (djb2 type) es

/-- The inner loop, apop_settings.c:34-35: `for (j; j < ct+1; j++) settings[j-1] = settings[j]`; `k` is the
number of iterations. -/
def shift : Nat → Nat → List (Entry γ) → Res (List (Entry γ))
  | 0, _, es => .ok es
  | k + 1, j, es => do
    let e ← rd es j
    let es ← wr es (j - 1) e
    shift k (j + 1) es

/-- The outer loop, apop_settings.c:31-39. `ct` is not updated. Fuel: when it runs out the result is
`ub` (`C24` shows that it never does). Returns the array and the groups freed. -/
def removeLoop (h : UInt64) (ct : Nat) : Nat → Nat → List (Entry γ) → List γ → Res (List (Entry γ) × List γ)
  | 0, _, _, _ => .ub
  | k + 1, i, es, freed => do
    let e ← rd es i
    if e.name = [] then .ok (es, freed)
    else if e.hash = h then do
      let es ← shift (ct - i) (i + 1) es
      removeLoop h ct k i es (freed ++ e.group.toList)
    else removeLoop h ct k (i + 1) es freed

/-- `apop_settings_remove_group`, apop_settings.c:26-41. -/
def remove (m : Mod γ) (delme : CStr) : Res (Mod γ × List γ) :=
  match m.settings with
  | none => .ok (m, [])
  | some es => do
    let ct ← count m
    let (es, freed) ← removeLoop (djb2 delme) ct (2 * es.length + 1) 0 es []
    .ok ({ m with settings := some es }, freed)

/-- `apop_settings_group_alloc`, apop_settings.c:44-57: `realloc` to `ct+2` entries, the last two of which are
written; `strncpy` cuts the name at 100 bytes. -/
def add (m : Mod γ) (type : CStr) (g : γ) : Res (Mod γ × List γ) := do
  let old ← get m type
  let (m, freed) ← (if old.isSome then remove m type else .ok (m, []) : Res (Mod γ × List γ))
  let ct ← count m
  let new : Entry γ := ⟨type.take 100, djb2 type, some g⟩
  .ok ({ m with settings := some ((m.settings.getD []).take ct ++ [new, sentinel]) }, freed)

/-- `apop_settings_copy_group(outm, inm, copyme)`, apop_settings.c:91-108, for non-NULL models and a string that
is not NULL. (Line 103 finds the same entry again, for its copy function.) -/
def copyGroup (cp : γ → γ) (outm inm : Mod γ) (copyme : CStr) : Res (Mod γ × List γ) :=
  if copyme = [] then .ok (outm, [])
  else if inm.settings = none then .ok (outm, [])
  else do
    let g ← get inm copyme
    match g with
    | none => .ok ({ outm with error := some 's' }, [])
    | some g => add outm copyme (cp g)

/-- The loop of `apop_model_copy` over the settings, apop_model.m4.c:168-171: copy by the name stored in the
entry, the sentinel included. -/
def copyLoop (cp : γ → γ) (inm : Mod γ) : List (Entry γ) → Mod γ → Res (Mod γ)
  | [], _ => .ub
  | e :: es, out => do
    let (out, _) ← copyGroup cp out inm e.name
    if e.name = [] then .ok out else copyLoop cp inm es out

/-- `apop_model_copy`, apop_model.m4.c:156-183, settings and error flag only (nothing is freed: the
copy has no settings yet, unless two stored names have the same hash). -/
def modelCopy (cp : γ → γ) (inm : Mod γ) : Res (Mod γ) :=
  match inm.settings with
  | none => .ok inm
  | some es => copyLoop cp inm es { inm with settings := none }

/-- `apop_model_free`, apop_model.m4.c:54-63: the groups freed. -/
def modelFree (m : Mod γ) : Res (List γ) :=
  match m.settings with
  | none => .ok []
  | some es => do
    let l ← scan es
    .ok (l.filterMap (·.group))

/-! ## histories -/

/-- One call on one of the program's models. -/
inductive Op (γ : Type) where
  | add (m : Nat) (type : CStr) (g : γ)
  | rm (m : Nat) (type : CStr)
  | copy (out inp : Nat) (type : CStr)

/-- All models of the program, and the groups freed so far. -/
structure World (γ : Type) where
  models : Nat → Mod γ
  freed : List γ

def World.set (w : World γ) (i : Nat) (m : Mod γ) (fr : List γ) : World γ :=
  ⟨fun j => if j = i then m else w.models j, w.freed ++ fr⟩

/-- Execute one call. -/
def step (cp : γ → γ) (w : World γ) : Op γ → Res (World γ)
  | .add m t g => do
    let (m', fr) ← add (w.models m) t g
    .ok (w.set m m' fr)
  | .rm m t => do
    let (m', fr) ← remove (w.models m) t
    .ok (w.set m m' fr)
  | .copy o i t => do
    let (m', fr) ← copyGroup cp (w.models o) (w.models i) t
    .ok (w.set o m' fr)

/-- Execute a history. -/
def run (cp : γ → γ) (w : World γ) : List (Op γ) → Res (World γ)
  | [] => .ok w
  | o :: os => do
    let w ← step cp w o
    run cp w os

end Apop.Settings
