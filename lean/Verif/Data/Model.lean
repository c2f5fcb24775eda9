import Verif.Name.Model

/-! # `apop_data`: allocation, memcpy, copy (apop_data.m4.c:30-330)

`gsl_vector` is its list of elements, `gsl_matrix` a list of rows plus the number of columns
(strides, ownership flags and views are modelled where they matter, in Realloc and Views).
The element type is a parameter: these functions only move elements. -/

namespace Apop

/-- A `gsl_matrix` (size1 = number of rows, size2 = `cols`). -/
structure Mat (α : Type) where
  rows : List (List α)
  cols : Nat
  deriving DecidableEq, Repr

namespace Mat
variable {α : Type}
def size1 (m : Mat α) : Nat := m.rows.length
/-- Every row has `size2` elements: the invariant of the type in GSL. -/
def WF (m : Mat α) : Prop := ∀ r ∈ m.rows, r.length = m.cols
instance (m : Mat α) : Decidable m.WF := inferInstanceAs (Decidable (∀ r ∈ m.rows, _))
/-- `gsl_matrix_get`, `none` out of range. -/
def get? (m : Mat α) (i j : Nat) : Option α := (m.rows[i]?).bind (·[j]?)
/-- `gsl_matrix_alloc` with arbitrary (uninitialised) content `junk`. -/
def fresh (junk : α) (r c : Nat) : Mat α := ⟨List.replicate r (List.replicate c junk), c⟩
end Mat

/-- One `apop_data` struct without its `more` pointer (apop.m4.h:72-81). `error = none` is
`error == 0`. `text` is the allocated grid, `textsize` the two recorded dimensions. -/
structure Page (α : Type) where
  vector : Option (List α) := none
  matrix : Option (Mat α) := none
  names : Option Names := none
  text : List (List CStr) := []
  textsize : Nat × Nat := (0, 0)
  weights : Option (List α) := none
  error : Option Char := none
  deriving DecidableEq, Repr

namespace Page
variable {α : Type}

/-- The text grid is allocated as recorded. -/
def TextWF (p : Page α) : Prop :=
  p.text.length = p.textsize.1 ∧ ∀ r ∈ p.text, r.length = p.textsize.2

/-- The invariants of a data set: rectangular matrix, text grid of the recorded size, and no grid
with exactly one zero dimension. -/
def WF (p : Page α) : Prop :=
  (∀ m, p.matrix = some m → m.WF) ∧ p.TextWF ∧ (p.textsize.1 = 0 ↔ p.textsize.2 = 0)

/-- `(int)x` for a `size_t` x on x86-64 (used where the code narrows implicitly). -/
def toInt32 (x : Nat) : Int :=
  let r : Nat := x % 2 ^ 32
  if r < 2 ^ 31 then (r : Int) else (r : Int) - 2 ^ 32

/-- The size dispatch shared by `apop_data_alloc` (apop_data.m4.c:37-48) and `apop_data_calloc`
(apop_data.m4.c:82-93): (vsize, msize1, msize2). `size3` and `msize2` are C `int`s; the assignment
`msize2 = size2` narrows. -/
def allocSizes (size1 size2 : Nat) (size3 : Int) : Nat × Nat × Int :=
  if size3 ≠ 0 then (size1, size2, size3)
  else if size2 ≠ 0 then (0, size1, toInt32 size2)
  else (size1, 0, 0)

/-- `apop_data_alloc`, apop_data.m4.c:32-68 (malloc failures not modelled); `junk` is the
uninitialised content. `apop_data_calloc`, apop_data.m4.c:77-110, is the same with `junk = 0`. -/
def allocWith (junk : α) (size1 size2 : Nat) (size3 : Int) : Page α :=
  let (vsize, msize1, msize2) := allocSizes size1 size2 size3
  { matrix := if 0 < msize2 ∧ 0 < msize1 then some (Mat.fresh junk msize1 msize2.toNat) else none
    vector := if vsize ≠ 0 then some (List.replicate vsize junk) else none
    names := some Names.alloc }

/-- `apop_data_alloc()` without arguments. -/
def empty : Page α := { names := some Names.alloc }

/-- The name-copying block of `apop_data_memcpy` for one list, apop_data.m4.c:236-244:
positions the target already has are overwritten (hashes are *not* updated), the rest added. -/
def copyList (type : Char) (get : Names → List CStr) (put : Names → List CStr → Names)
    (out : Names) : Nat → List CStr → Names
  | _, [] => out
  | i, s :: ss =>
    let out := if i < (get out).length then put out ((get out).set i s)
               else (out.add (some s) type).1
    copyList type get put out (i + 1) ss

/-- Name part of `apop_data_memcpy`, apop_data.m4.c:232-245. Note line 235: the vector name is
copied only if the *target already has one*. -/
def memcpyNames (out inn : Names) : Names :=
  let out := { out with title := some (Names.printS inn.title) }
  let out := match out.vector, inn.vector with
    | some _, some v => { out with vector := some v }
    | _, _ => out
  let out := copyList 'r' Names.row (fun n l => { n with row := l }) out 0 inn.row
  let out := copyList 'c' Names.col (fun n l => { n with col := l }) out 0 inn.col
  copyList 't' Names.text (fun n l => { n with text := l }) out 0 inn.text

/-- Write string `s` at `text[i][j]` of the *allocated* grid. -/
def wrText (grid : List (List CStr)) (i j : Nat) (s : CStr) : Res (List (List CStr)) := do
  let r ← rd grid i
  let r ← wr r j s
  wr grid i r

/-- Inner loop over `j` of the text copy, apop_data.m4.c:256-259: cells `j, j+1, ..` of row `i`. -/
def copyTextRow (grid : List (List CStr)) (i : Nat) : Nat → List CStr → Res (List (List CStr))
  | _, [] => .ok grid
  | j, s :: ss => do
    let grid ← wrText grid i j s
    copyTextRow grid i (j + 1) ss

/-- Outer loop over `i` of the text copy, apop_data.m4.c:255-259. -/
def copyText (grid : List (List CStr)) : Nat → List (List CStr) → Res (List (List CStr))
  | _, [] => .ok grid
  | i, r :: rs => do
    let grid ← copyTextRow grid i 0 r
    copyText grid (i + 1) rs

/-- The two checks made before each part is copied: 'p' if the source has the part and the target
does not, 'd' if the sizes differ (apop_data.m4.c:208-210 and twins at 216-218, 224-226). -/
def partError {β : Type} (inn out : Option β) (same : β → β → Bool) : Option Char :=
  match inn, out with
  | none, _ => none
  | some _, none => some 'p'
  | some a, some b => if same a b then none else some 'd'

/-- Body of `apop_data_memcpy` for one page, apop_data.m4.c:207-260, for `out`, `in` distinct and
not NULL. The Boolean says whether the end of the body was reached (`false`: early `return` after
setting the error). Lines 246-247 assign the target's `textsize` *before* the check in line 249,
so that check compares the source with itself; it is kept here, dead as in the code. -/
def memcpyPage (out inn : Page α) : Res (Page α × Bool) :=
  match partError inn.matrix out.matrix (fun a b => a.size1 == b.size1 && a.cols == b.cols) with
  | some e => .ok ({ out with error := some e }, false)
  | none =>
  let out := { out with matrix := inn.matrix.or out.matrix }
  match partError inn.vector out.vector (fun a b => a.length == b.length) with
  | some e => .ok ({ out with error := some e }, false)
  | none =>
  let out := { out with vector := inn.vector.or out.vector }
  match partError inn.weights out.weights (fun a b => a.length == b.length) with
  | some e => .ok ({ out with error := some e }, false)
  | none =>
  let out := { out with weights := inn.weights.or out.weights }
  let out := match inn.names with
    | some n => { out with names := some (memcpyNames (out.names.getD Names.alloc) n) }
    | none => out
  let out := { out with textsize := inn.textsize }
  if inn.textsize.1 ≠ 0 ∧ inn.textsize.2 ≠ 0 then
    if out.textsize.1 < inn.textsize.1 ∨ out.textsize.2 < inn.textsize.2 then
      .ok ({ out with error := some 'd' }, false)
    else do
      let g ← copyText out.text 0 inn.text
      .ok ({ out with text := g }, true)
  else .ok (out, true)

/-- `apop_data_memcpy` on page chains, apop_data.m4.c:203-262: the first list element is the struct
passed in, the rest its `more` chain; the empty list is NULL. -/
def memcpy : List (Page α) → List (Page α) → Res (List (Page α))
  | [], _ => .ok []
  | _ :: _, [] => .ub   -- `in->matrix` with in == NULL
  | o :: os, i :: is => do
    let (o', go) ← memcpyPage o i
    if go then
      match os, is with
      | _ :: _, _ :: _ => do
        let rest ← memcpy os is
        .ok (o' :: rest)
      | _, _ => .ok (o' :: os)
    else .ok (o' :: os)

/-- The shell that `apop_data_copy` allocates before the memcpy, apop_data.m4.c:285-315; `junk` is
the uninitialised numeric content. (Text cells are blank: `apop_text_alloc` on a fresh set, see
`TextGrid`.) -/
def copyShell (junk : α) (p : Page α) : Page α :=
  { (empty : Page α) with
    error := p.error
    vector := p.vector.map (fun v => List.replicate v.length junk)
    matrix := p.matrix.map (fun m => Mat.fresh junk m.size1 m.cols)
    weights := p.weights.map (fun v => List.replicate v.length junk)
    text := if p.textsize.1 ≠ 0 ∧ p.textsize.2 ≠ 0 then
        List.replicate p.textsize.1 (List.replicate p.textsize.2 []) else []
    textsize := if p.textsize.1 ≠ 0 ∧ p.textsize.2 ≠ 0 then p.textsize else (0, 0) }

/-- `apop_data_copy` on an acyclic chain, apop_data.m4.c:283-318. If the copy of the rest of the
chain carries an error flag, the parent gets that flag and is returned *empty* (line 296-298);
otherwise the shell is filled by `apop_data_memcpy`, which walks the whole chain again (line 316). -/
def copy (junk : α) : List (Page α) → Res (List (Page α))
  | [] => .ok []
  | [p] =>
    if p.error.isSome ∧ p.textsize.1 ≠ 0 ∧ p.textsize.2 ≠ 0 then
      .ok [copyShell junk p]     -- line 314: out->error is already set, so the memcpy is skipped
    else memcpy [copyShell junk p] [p]
  | p :: q :: rest => do
    let more ← copy junk (q :: rest)
    match more with
    | m :: ms =>
      match m.error with
      | some e => .ok ({ (empty : Page α) with error := some e } :: m :: ms)
      | none =>
        if p.error.isSome ∧ p.textsize.1 ≠ 0 ∧ p.textsize.2 ≠ 0 then
          .ok (copyShell junk p :: m :: ms)
        else memcpy (copyShell junk p :: m :: ms) (p :: q :: rest)
    | [] => .ub

end Page
end Apop
