import Verif.Data.Model

/-! # The text grid: `apop_text_alloc`, `apop_text_set` (apop_data.m4.c:995-1083) -/

namespace Apop.Text

/-- One `char*` in the grid: the shared blank string, an owned heap string, or memory that was
allocated but never written. -/
inductive Cell where
  | nul
  | own (s : CStr)
  | uninit
  deriving DecidableEq, Repr

/-- `text` (`none` = NULL) and `textsize` of a data set. -/
structure Grid where
  text : Option (List (List Cell)) := none
  size : Nat × Nat := (0, 0)
  deriving DecidableEq, Repr

/-- `for (j=..; n times) row[j] = apop_nul_string`. -/
def nulRange (row : List Cell) : Nat → Nat → Res (List Cell)
  | _, 0 => .ok row
  | j, n + 1 => do
    let row ← wr row j .nul
    nulRange row (j + 1) n

/-- `for (j=..; n times) if (row[j] != apop_nul_string) free(row[j])`: reads the pointers; testing or
freeing an unwritten one is undefined. The freed strings are dropped by the callers, which free or
shrink the row right after. -/
def freeRange (row : List Cell) : Nat → Nat → Res Unit
  | _, 0 => .ok ()
  | j, n + 1 => do
    let c ← rd row j
    if c = .uninit then .ub else freeRange row (j + 1) n

/-- Run `f` on every row in order. -/
def eachRow (f : List Cell → Res (List Cell)) : List (List Cell) → Res (List (List Cell))
  | [] => .ok []
  | r :: rs => do
    let r ← f r
    let rs ← eachRow f rs
    .ok (r :: rs)

/-- `realloc` of a row to `n` pointers. -/
def resizeRow (row : List Cell) (n : Nat) : List Cell :=
  row.take n ++ List.replicate (n - row.length) .uninit

/-- `apop_text_alloc(in, row, col)`, apop_data.m4.c:1023-1083 (`in == NULL`, an empty set, is the
default `Grid`; allocation failures not modelled; `realloc(p, 0)` frees and returns NULL). -/
def alloc (g : Grid) (row col : Nat) : Res Grid :=
  if (row = 0 ∧ col ≠ 0) ∨ (col = 0 ∧ row ≠ 0) then .ok g          -- 1024-1025
  else match g.text with
  | none =>                                                          -- 1027-1040
    if row = 0 then .ok { text := none, size := (row, col) }
    else do
      let rows ← eachRow (fun r => nulRange r 0 col)
        (List.replicate row (List.replicate col .uninit))
      .ok { text := some rows, size := (row, col) }
  | some t => do                                                     -- 1041-1079
    let rowsNow := g.size.1
    let colsNow := g.size.2
    -- 1044-1055: drop rows
    let t ← (if rowsNow > row then do
        let _ ← eachRow (fun r => do freeRange r 0 colsNow; .ok r) ((t.drop row).take (rowsNow - row))
        .ok (t.take row)
      else .ok t : Res (List (List Cell)))
    -- 1056-1067: new rows get `col` pointers, but `cols_now` of them are blanked
    let t ← (if rowsNow < row then do
        let new ← eachRow (fun r => nulRange r 0 colsNow)
          (List.replicate (row - rowsNow) (List.replicate col .uninit))
        .ok (t ++ new)
      else .ok t : Res (List (List Cell)))
    -- 1068-1072: free cells in dropped columns
    let t ← (if colsNow > col then
        eachRow (fun r => do freeRange r col (colsNow - col); .ok r) t
      else .ok t : Res (List (List Cell)))
    -- 1073-1078: resize the rows
    let t ← (if colsNow ≠ col then
        eachRow (fun r => nulRange (resizeRow r col) colsNow (col - colsNow)) t
      else .ok t : Res (List (List Cell)))
    .ok { text := if row = 0 then none else some t, size := (row, col) }

/-- `(size_t)((int)x + 1)` as evaluated in the bounds check of `apop_text_set`,
apop_data.m4.c:997: `x` is narrowed to int, `INT_MAX + 1` overflows (undefined), and the
comparison with a size_t converts back modulo 2^64. -/
def checkedPos (x : Nat) : Res Nat :=
  let r := Page.toInt32 x
  if r = 2 ^ 31 - 1 then .ub else .ok ((r + 1) % 2 ^ 64).toNat

/-- `apop_text_set(in, row, col, fmt, ..)`, apop_data.m4.c:995-1011, where `s` is the formatted
text (`none` for a NULL format, which stores `nanString`). Returns the grid and the C return
value. `row`, `col` are size_t. The `||` of the check short-circuits. -/
def set (g : Grid) (nanString : CStr) (row col : Nat) (s : Option CStr) : Res (Grid × Int) := do
  let r1 ← checkedPos row
  if g.size.1 < r1 then .ok (g, -1) else
  let c1 ← checkedPos col
  if g.size.2 < c1 then .ok (g, -1) else
  match g.text with
  | none => .ub
  | some t => do
    let r ← rd t row
    let c ← rd r col
    if c = .uninit then .ub else
    let r ← wr r col (.own (s.getD nanString))
    let t ← wr t row r
    .ok ({ g with text := some t }, 0)

end Apop.Text
