import Verif.Views.Model

/-! # `apop_data_transpose` (apop_data.m4.c:1112-1194) -/

namespace Apop.Transpose
variable {α : Type}

/-- `gsl_matrix_transpose` / `gsl_matrix_transpose_memcpy` (GSL, assumed to do what they say):
row `j` of the result is column `j` of the argument. -/
def matTr (m : Mat α) : Mat α :=
  ⟨(List.range m.cols).map (fun j => m.rows.filterMap (·[j]?)), m.rows.length⟩

/-- Read `text[i][j]`. -/
def rdCell (g : List (List CStr)) (i j : Nat) : Res CStr := do
  let r ← rd g i
  rd r j

/-- Read `text[j][i], text[j+1][i], ..`, `k` cells (the inner loops at apop_data.m4.c:1152-1155 and
1165-1168: `strdup`, or the shared blank string). -/
def colCells (g : List (List CStr)) (i : Nat) : Nat → Nat → Res (List CStr)
  | _, 0 => .ok []
  | j, k + 1 => do
    let c ← rdCell g j i
    let cs ← colCells g i (j + 1) k
    .ok (c :: cs)

/-- apop_data.m4.c:1147-1157: rows `i, .., i+k-1` are extended by the cells below the square. -/
def extendRows (orows ocols : Nat) : Nat → Nat → List (List CStr) → Res (List (List CStr))
  | _, 0, g => .ok g
  | i, k + 1, g => do
    let cs ← colCells g i ocols (orows - ocols)
    let r ← rd g i
    let g ← wr g i (r ++ cs)
    extendRows orows ocols (i + 1) k g

/-- apop_data.m4.c:1158-1170: rows `i, .., i+k-1` are added. -/
def addRows (orows : Nat) : Nat → Nat → List (List CStr) → Res (List (List CStr))
  | _, 0, g => .ok g
  | i, k + 1, g => do
    let cs ← colCells g i 0 orows
    addRows orows (i + 1) k (g ++ [cs])

/-- Exchange `text[i][j]` and `text[j][i]`, apop_data.m4.c:1174-1176. -/
def swapCell (g : List (List CStr)) (i j : Nat) : Res (List (List CStr)) := do
  let a ← rdCell g i j
  let b ← rdCell g j i
  let g ← Page.wrText g i j b
  Page.wrText g j i a

/-- Inner loop over `j`, apop_data.m4.c:1173. -/
def swapRow (i : Nat) : Nat → Nat → List (List CStr) → Res (List (List CStr))
  | _, 0, g => .ok g
  | j, k + 1, g => do
    let g ← swapCell g i j
    swapRow i (j + 1) k g

/-- Outer loop over `i`, apop_data.m4.c:1172. -/
def swapSquare (sq : Nat) : Nat → Nat → List (List CStr) → Res (List (List CStr))
  | _, 0, g => .ok g
  | i, k + 1, g => do
    let g ← swapRow i (i + 1) (sq - (i + 1)) g
    swapSquare sq (i + 1) k g

/-- In-place text transposition, apop_data.m4.c:1144-1180. Rows beyond the new height and cells beyond
the new width stay allocated (a leak) but are out of reach of `textsize`; they are cut off here. -/
def textInPlace (p : Page α) : Res (Page α) := do
  let orows := p.textsize.1
  let ocols := p.textsize.2
  let g ← (if orows > ocols then extendRows orows ocols 0 ocols p.text else .ok p.text : Res (List (List CStr)))
  let g ← (if ocols > orows then addRows orows orows (ocols - orows) g else .ok g : Res (List (List CStr)))
  let g ← swapSquare (min orows ocols) 0 (min orows ocols) g
  .ok { p with text := (g.take ocols).map (·.take orows), textsize := (ocols, orows) }

/-- What `printf` makes of a string used as its format without further arguments: `%%` prints `%`,
any other conversion reads an argument that is not there. -/
def fmtOnly : CStr → Res CStr
  | [] => .ok []
  | c :: cs =>
    if c = 37 then
      match cs with
      | d :: ds => if d = 37 then (do let r ← fmtOnly ds; .ok (37 :: r)) else .ub
      | [] => .ub
    else do
      let r ← fmtOnly cs
      .ok (c :: r)

/-- One row of the copying loop, apop_data.m4.c:1183-1187: cell (r,c) goes to (c,r), its text being used
as the *format* of `apop_text_set`. (A blank cell stays blank: `fmtOnly [] = []`.) -/
def textRowCopy (r : Nat) : Nat → List CStr → List (List CStr) → Res (List (List CStr))
  | _, [], g => .ok g
  | c, s :: ss, g => do
    let t ← fmtOnly s
    let g ← Page.wrText g c r t
    textRowCopy r (c + 1) ss g

/-- The copying loop, apop_data.m4.c:1182-1187. -/
def textCopy : Nat → List (List CStr) → List (List CStr) → Res (List (List CStr))
  | _, [], g => .ok g
  | r, row :: rows, g => do
    let g ← textRowCopy r 0 row g
    textCopy (r + 1) rows g

/-- Line 1190-1191 for a copy: if the input has text names and no column names, its *row* names are
appended to the output's text names. -/
def lastNames (out : Names) (inn : Option Names) : Names :=
  match inn with
  | none => out
  | some n => if n.text ≠ [] ∧ n.col = [] then out.stack (some n) (some 't') (some 'r') else out

/-- `apop_data_transpose(p, transpose_text, inplace='y')`, apop_data.m4.c:1112-1194: (value returned
is `p` itself or, with neither matrix nor text, a fresh empty set). Line 1190 then reads the names
*after* the exchange, and stacks the structure onto itself. -/
def inPlace (p : Page α) (transposeText : Bool) : Res (Page α) :=
  if p.matrix.isNone ∧ p.textsize.1 = 0 then .ok Page.empty
  else do
    let p := { p with matrix := p.matrix.map matTr
                      names := p.names.map (fun n => { n with col := n.row, row := n.col }) }
    if !transposeText ∨ p.textsize.1 = 0 ∨ p.textsize.2 = 0 then .ok p
    else do
      let p ← textInPlace p
      match p.names with
      | none => .ok p
      | some n =>
        if n.text ≠ [] ∧ n.col = [] then do
          let n ← n.stackSelf (some 't') (some 'r')
          .ok { p with names := some n }
        else .ok p

/-- `apop_data_transpose(p, transpose_text, inplace='n')`. -/
def toCopy (p : Page α) (transposeText : Bool) : Res (Page α) :=
  if p.matrix.isNone ∧ p.textsize.1 = 0 then .ok Page.empty
  -- apop_data.m4.c:1122-1124: a zero-sized output matrix is not allocated, and line 1145 dereferences it
  else if p.matrix.any (fun m => m.size1 == 0 || m.cols == 0) then .ub
  else do
    let names := if p.matrix.isSome then
        (Names.alloc.stack p.names (some 'r') (some 'c')).stack p.names (some 'c') (some 'r')
      else Names.alloc
    let out : Page α := { (Page.empty : Page α) with matrix := p.matrix.map matTr, names := some names }
    if !transposeText ∨ p.textsize.1 = 0 ∨ p.textsize.2 = 0 then .ok out
    else do
      let g ← textCopy 0 p.text (List.replicate p.textsize.2 (List.replicate p.textsize.1 []))
      .ok { out with text := g, textsize := (p.textsize.2, p.textsize.1)
                     names := some (lastNames names p.names) }

end Apop.Transpose
