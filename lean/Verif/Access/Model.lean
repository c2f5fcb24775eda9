import Verif.Pages.Model

/-! # `apop_data_get`, `apop_data_set`, `apop_data_ptr`, `apop_data_add_named_elmt`
(apop_data.m4.c:766-954) -/

namespace Apop.Access
variable {α : Type}

/-- What a get produces: an element; NaN (with a notice); or a GSL range error -- with GSL's default
handler the program aborts, with a handler that returns the value is 0.0. -/
inductive Got (α : Type) where
  | val (a : α)
  | nan
  | rangeError
  deriving DecidableEq, Repr

/-- The optional arguments shared by get, set and ptr. `row` is a size_t, `col` an int. -/
structure Where where
  row : Nat := 0
  col : Int := 0
  rowname : Option CStr := none
  colname : Option CStr := none
  page : Option CStr := none

/-- The page selection, apop_data.m4.c:822-825 (get), 890-893 (set): the page with the given title
(as `apop_data_get_page` finds it), or the first page. Result: the pages before it, and the chain from
it on (empty: not found). -/
def selectPage (ps : List (Page α)) (page : Option CStr) : List (Page α) × List (Page α) :=
  match page with
  | none => ([], ps)
  | some t =>
    (ps.takeWhile (fun p => !Pages.pageMatches (fun _ _ => false) 'c' t p),
     ps.dropWhile (fun p => !Pages.pageMatches (fun _ _ => false) 'c' t p))

/-- Row resolution, apop_data.m4.c:826-830 (get), 895-898 (set). Row -2 becomes `(size_t)-2`, which
equals `-2` in the comparison that follows, so a missing row name is detected (`none`). Searching in
NULL names is undefined. -/
def rowOf (names : Option Names) (w : Where) : Res (Option Nat) :=
  match w.rowname with
  | none => .ok (some w.row)
  | some s =>
    match names with
    | none => .ub
    | some n => do
      let r ← n.find (some s) 'r'
      .ok (if r = -2 then none else some r.toNat)

/-- Column resolution, apop_data.m4.c:831-835 (get), 899-902 (set). -/
def colOf (names : Option Names) (w : Where) : Res (Option Int) :=
  match w.colname with
  | none => .ok (some w.col)
  | some s =>
    match names with
    | none => .ub
    | some n => do
      let r ← n.find (some s) 'c'
      .ok (if r = -2 then none else some r)

/-- The name-resolving header, apop_data.m4.c:822-835 (get), 890-902 (set), 774-785 (ptr):
`.ok none` is the "couldn't find" exit; otherwise the pages before the selected one, the page and
those after, and the row and column. -/
def resolve (ps : List (Page α)) (w : Where) :
    Res (Option (List (Page α) × Page α × List (Page α) × Nat × Int)) :=
  match selectPage ps w.page with
  | (_, []) => .ok none
  | (before, p :: after) => do
    let row ← rowOf p.names w
    match row with
    | none => .ok none
    | some row => do
      let col ← colOf p.names w
      match col with
      | none => .ok none
      | some col => .ok (some (before, p, after, row, col))

/-- Line 837 / 905 / 787: does (row, col) denote a vector element? -/
def usesVector (p : Page α) (col : Int) : Bool :=
  col == -1 || (col == 0 && p.matrix.isNone && p.vector.isSome)

/-- Body of `apop_data_get`, apop_data.m4.c:837-843. A negative `col` converted to size_t exceeds
every matrix width. -/
def getBody (p : Page α) (row : Nat) (col : Int) : Got α :=
  if usesVector p col then
    match p.vector with
    | none => .nan
    | some v => match v[row]? with
      | some a => .val a
      | none => .rangeError
  else
    match p.matrix with
    | none => .nan
    | some m => if col < 0 then .rangeError else
      match m.get? row col.toNat with
      | some a => .val a
      | none => .rangeError

/-- `apop_data_get`, apop_data.m4.c:814-844, on a page chain. -/
def get (ps : List (Page α)) (w : Where) : Res (Got α) := do
  match ← resolve ps w with
  | none => .ok .nan
  | some (_, p, _, row, col) => .ok (getBody p row col)

/-- Write cell (i,j) of a matrix, `none` out of range. -/
def matSet (m : Mat α) (i j : Nat) (x : α) : Option (Mat α) :=
  match m.rows[i]? with
  | none => none
  | some r => if j < r.length then some { m with rows := m.rows.set i (r.set j x) } else none

/-- Body of `apop_data_set`, apop_data.m4.c:904-913, and the value returned. The handler installed in
line 904 is `apop_gsl_error`, which only prints; `apop_gsl_error_for_set` (line 852), which would set
`error_for_set = -1`, is never installed. So a GSL range error writes nothing and the function
returns the initial value of `error_for_set`, 0. -/
def setBody (p : Page α) (row : Nat) (col : Int) (x : α) : Page α × Int :=
  if usesVector p col then
    match p.vector with
    | none => (p, -1)
    | some v => if row < v.length then ({ p with vector := some (v.set row x) }, 0) else (p, 0)
  else
    match p.matrix with
    | none => (p, -1)
    | some m => if col < 0 then (p, 0) else
      match matSet m row col.toNat x with
      | some m' => ({ p with matrix := some m' }, 0)
      | none => (p, 0)

/-- `apop_data_set`, apop_data.m4.c:881-914, on a page chain. -/
def set (ps : List (Page α)) (w : Where) (x : α) : Res (List (Page α) × Int) := do
  match ← resolve ps w with
  | none => .ok (ps, -1)
  | some (before, p, after, row, col) =>
    let (p', r) := setBody p row col x
    .ok (before ++ p' :: after, r)

/-- `apop_data_add_named_elmt`, apop_data.m4.c:944-953; `junk` fills reallocated cells. `name ==
NULL` adds no name (then row `rowct-1` is overwritten, or the write misses the vector if there are
no names). -/
def addNamed (junk : α) (p : Page α) (name : Option CStr) (x : α) : Res (Page α) :=
  match p.names with
  | none => .ub
  | some n =>
    let n := (n.add name 'r').1
    let v := p.vector.getD [junk]
    let v := if v.length < n.row.length then v ++ List.replicate (n.row.length - v.length) junk else v
    if n.row.length = 0 then .ok { p with names := some n, vector := some v }
    else do
      let v ← wr v (n.row.length - 1) x
      .ok { p with names := some n, vector := some v }

end Apop.Access
