import Verif.Data.Model

/-! # Page chains: heap of pages, free, copy, add/get/remove pages -/

namespace Apop.Pages
variable {α : Type}

/-- One allocated `apop_data` struct: its contents and its `more` pointer (an address). -/
structure Node (α : Type) where
  page : Page α
  more : Option Nat

/-- The heap: address to live struct; `none` is unallocated or freed. -/
abbrev Heap (α : Type) := Nat → Option (Node α)

/-- Update one address. -/
def Heap.set (h : Heap α) (a : Nat) (x : Option (Node α)) : Heap α :=
  fun b => if b = a then x else h b

/-- `freeme->error = 'c'`. -/
def mark (n : Node α) : Node α := { n with page := { n.page with error := some 'c' } }

/-- `apop_data_free_base`, apop_data.m4.c:151-176. Fuel bounds the recursion depth; the outer
`Option` is `none` when it runs out. Result: the heap afterwards and the returned character
(`none` = 0). Touching freed memory is `ub`. -/
def free : Nat → Heap α → Option Nat → Option (Res (Heap α × Option Char))
  | _, h, none => some (.ok (h, none))
  | 0, _, some _ => none
  | fuel + 1, h, some a =>
    match h a with
    | none => some .ub
    | some n =>
      match n.more with
      | none => some (.ok (h.set a none, none))
      | some b =>
        if b = a then some (.ok (h.set a (some (mark n)), some 'c'))
        else
          match free fuel h (some b) with
          | none => none
          | some .ub => some .ub
          | some (.ok (h, r)) =>
            match h a with            -- `freeme` itself, after the recursive call
            | none => some .ub
            | some n =>
              if r.isSome then        -- line 159: then `freeme->more->error` is read
                match h b with
                | none => some .ub
                | some m =>
                  if m.page.error = some 'c' then
                    some (.ok (h.set a (some (mark n)), some 'c'))
                  else some (.ok (h.set a none, none))
              else some (.ok (h.set a none, none))

/-- The pages from `a` on, following `more` for at most `fuel` steps; `none` if the end is not
reached. -/
def chain : Nat → Heap α → Option Nat → Option (Res (List (Page α)))
  | _, _, none => some (.ok [])
  | 0, _, some _ => none
  | fuel + 1, h, some a =>
    match h a with
    | none => some .ub
    | some n =>
      match chain fuel h n.more with
      | none => none
      | some .ub => some .ub
      | some (.ok l) => some (.ok (n.page :: l))

/-- `apop_data_copy` on the heap, apop_data.m4.c:283-318, including the self-loop check that
`Page.copy` (acyclic chains) leaves out. The result is the chain of new pages. -/
def copy (junk : α) : Nat → Heap α → Option Nat → Option (Res (List (Page α)))
  | _, _, none => some (.ok [])
  | 0, _, some _ => none
  | fuel + 1, h, some a =>
    match h a with
    | none => some .ub
    | some n =>
      match n.more with
      | none => some (Page.copy junk [n.page])
      | some b =>
        if b = a then some (.ok [{ (Page.empty : Page α) with error := some 'c' }])
        else
          match copy junk fuel h (some b) with
          | none => none
          | some .ub => some .ub
          | some (.ok []) => some .ub
          | some (.ok (m :: ms)) =>
            match m.error with
            | some e => some (.ok ({ (Page.empty : Page α) with error := some e } :: m :: ms))
            | none =>
              if n.page.error.isSome ∧ n.page.textsize.1 ≠ 0 ∧ n.page.textsize.2 ≠ 0 then
                some (.ok (Page.copyShell junk n.page :: m :: ms))
              else
                match chain fuel h (some b) with   -- line 316 walks both chains
                | none => none
                | some .ub => some .ub
                | some (.ok rest) => some (Page.memcpy (Page.copyShell junk n.page :: m :: ms) (n.page :: rest))

/-! ## Pages as a list (acyclic chains) -/

/-- The title of a page, NULL if there are no names. -/
def title (p : Page α) : Option CStr := p.names.bind Names.title

/-- Does this page match? apop_data.m4.c:1298-1302. `regex` is `apop_regex(title, pattern)`. -/
def pageMatches (regex : CStr → CStr → Bool) (m : Char) (want : CStr) (p : Page α) : Bool :=
  match title p with
  | none => false
  | some t =>
    !((m == 'c' && !caseEq t want) || (m == 'r' && !regex t want) || (m == 'e' && t != want))

/-- The loop of `apop_data_get_page`, apop_data.m4.c:1298-1304, returning the tail of the chain that
starts at the page found (the pointer returned). -/
def getLoop (regex : CStr → CStr → Bool) (m : Char) (want : CStr) : List (Page α) → List (Page α)
  | [] => []
  | p :: ps => if pageMatches regex m want p then p :: ps else getLoop regex m want ps

/-- `apop_data_get_page`, apop_data.m4.c:1290-1304; `[]` is NULL. Defaults: title "<Info>",
match 'c'. -/
def getPage (regex : CStr → CStr → Bool) (ps : List (Page α)) (want : Option CStr)
    (m : Option Char) : List (Page α) :=
  let want := want.getD [60, 73, 110, 102, 111, 62]
  let m := m.getD 'c'
  if m ≠ 'r' ∧ m ≠ 'e' ∧ m ≠ 'c' then [] else getLoop regex m want ps

/-- Titling the new page, apop_data.m4.c:1319-1323. -/
def retitle (p : Page α) (t : Option CStr) : Page α :=
  let n := p.names.getD Names.alloc
  match t with
  | none => { p with names := some n }
  | some t => { p with names := some { n with title := some t } }

/-- `apop_data_add_page(dataset, newpage, title)`, apop_data.m4.c:1317-1329, with the chains as lists:
the result is what `dataset` points to afterwards (the new chain for NULL). `newpage` may be a chain
itself. -/
def addPage (ps : List (Page α)) (new : List (Page α)) (t : Option CStr) : List (Page α) :=
  match new with
  | [] => ps
  | p :: rest => ps ++ (retitle p t :: rest)

/-- The loop of `apop_data_rm_page`, apop_data.m4.c:1364-1372, on the pages after the head: the
remaining pages, and the page taken out. `strcasecmp(NULL, ..)` is undefined. -/
def rmLoop (want : CStr) : List (Page α) → Res (List (Page α) × Option (Page α))
  | [] => .ok ([], none)
  | p :: ps =>
    match title p with
    | none => .ub
    | some t =>
      if caseEq t want then .ok (ps, some p)
      else do
        let (l, r) ← rmLoop want ps
        .ok (p :: l, r)

/-- `apop_data_rm_page(data, title, free_p='n')`, apop_data.m4.c:1357-1378 (with `free_p='y'` the
page is freed instead of returned). -/
def rmPage (ps : List (Page α)) (want : Option CStr) : Res (List (Page α) × Option (Page α)) :=
  match ps with
  | [] => .ok ([], none)
  | head :: tail => do
    let (l, r) ← rmLoop (want.getD [60, 73, 110, 102, 111, 62]) tail
    .ok (head :: l, r)

end Apop.Pages
