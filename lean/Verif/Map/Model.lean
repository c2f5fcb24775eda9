import Verif.Par.Loop
import Verif.Rows.Model

/-! # Mapping functions over data (apop_mapply.m4.c)

Every loop is run under a schedule (see `Par.loop`); `sch k` is the schedule of the `k`-th loop a call starts. -/

namespace Apop.Map
open Par
open Rows (maxsize)

/-- The cells of one row of a data set, and the element of the output vector for that row. -/
inductive RowCell where
  | vec
  | mat (j : Nat)
  | wt
  | out
  deriving DecidableEq

/-- The user's function. One on numbers (`fn_d`, `fn_dp`, `fn_di`, `fn_dpi`) gets a number and the index, and is taken to have no other effects. One
on vectors (`fn_v`, ...) gets a view of `size` elements and the index; it may change them. One on rows (`fn_r`, ...) gets a one row view and the
index, and may change its numbers. The parameter and the row's text and names are only read, and are part of the function. Functions that do not take the
index ignore it. (A function that goes outside of what it is given is not modelled.) -/
inductive Fn (α : Type) where
  | scalar (f : α → Nat → α)
  | vec (f : (size index : Nat) → Prog Nat α)
  | row (f : (index : Nat) → Prog RowCell α)

variable {α : Type}

/-! ## Loops -/

/-- The cells of an iteration of `vectorloop`. -/
inductive Cell where
  | inp
  | out
  deriving DecidableEq

/-- Where `vectorloop` writes: to the input's element if it is the output too. -/
def outCell (same : Bool) : Cell := if same then .inp else .out

/-- The body of `vectorloop`, apop_mapply.m4.c:280-289. -/
def vecBody (f : α → Nat → α) (same : Bool) (i : Nat) : Prog Cell α :=
  .get .inp (fun v => .put (outCell same) (f v i) (.ret v))

/-- The cells at the start. -/
def vecCells (junk : α) (vin : List α) (i : Nat) : Cell → α
  | .inp => vin.getD i junk
  | .out => junk

/-- `vectorloop`, apop_mapply.m4.c:274-290. `same`: the output is the input vector. Without output there is nothing to see of it. GSL checks the
range when it writes to the output. -/
def vecLoop (junk : α) (σ : List Nat) (f : α → Nat → α) (vin : List α) (vout : Option (List α)) (same : Bool) : Run (Option (List α)) :=
  match vout with
  | none => .done none
  | some out =>
    if out.length < vin.length then .ub
    else do
      let c ← loop σ vin.length (vecBody f same) (vecCells junk vin)
      .done (some ((List.range vin.length).map (fun i => if same then c i .inp else c i .out) ++ out.drop vin.length))

/-- Rename the cells of a program. -/
def reCell {J K : Type} (g : J → K) : Prog J α → Prog K α
  | .ret v => .ret v
  | .get j k => .get (g j) (fun v => reCell g (k v))
  | .put j v k => .put (g j) v (reCell g k)

/-- The body of `forloop`, apop_mapply.m4.c:255-261: the function on the view (cells `some j`), then the output (`none`). -/
def forBody (f : (size index : Nat) → Prog Nat α) (size : Nat) (hasOut : Bool) (i : Nat) : Prog (Option Nat) α :=
  (reCell some (f size i)).bind (fun v => if hasOut then .put none v (.ret v) else .ret v)

/-- The cells at the start, for the rows `ls`. -/
def forCells (junk : α) (ls : List (List α)) (i : Nat) : Option Nat → α
  | some j => (ls.getD i []).getD j junk
  | none => junk

/-- `forloop`, apop_mapply.m4.c:249-262, over views with the elements `ls` of `size` elements each (rows or columns): these elements and the output afterwards. -/
def forLoop (junk : α) (σ : List Nat) (f : (size index : Nat) → Prog Nat α) (ls : List (List α)) (size : Nat) (vout : Option (List α)) :
    Run (List (List α) × Option (List α)) :=
  if vout.any (fun out => decide (out.length < ls.length)) = true then .ub
  else do
    let c ← loop σ ls.length (forBody f size vout.isSome) (forCells junk ls)
    .done ((List.range ls.length).map (fun i => (List.range size).map (fun j => c i (some j))),
      vout.map (fun out => (List.range ls.length).map (fun i => c i none) ++ out.drop ls.length))

/-- Where `rowloop` writes. -/
def rowOut (same : Bool) : RowCell := if same then .vec else .out

/-- The body of `rowloop`, apop_mapply.m4.c:240-246. -/
def rowBody (f : (index : Nat) → Prog RowCell α) (hasOut same : Bool) (i : Nat) : Prog RowCell α :=
  (f i).bind (fun v => if hasOut then .put (rowOut same) v (.ret v) else .ret v)

/-- The cells at the start. A part the set does not have, or that is too short, has no cell in the view; it is not used. -/
def rowCells (junk : α) (p : Page α) (i : Nat) : RowCell → α
  | .vec => (p.vector.getD []).getD i junk
  | .mat j => (((p.matrix.map Mat.rows).getD []).getD i []).getD j junk
  | .wt => (p.weights.getD []).getD i junk
  | .out => junk

/-- A list, written back from cells. -/
def fromCells (c : Nat → α) (l : List α) : List α := (List.range l.length).map c

/-- The page, written back from the cells. -/
def rowBack (c : Nat → RowCell → α) (p : Page α) : Page α :=
  { p with
    vector := p.vector.map (fun l => fromCells (fun i => c i .vec) l)
    matrix := p.matrix.map (fun m => { m with rows := (List.range m.size1).map (fun i => (List.range m.cols).map (fun j => c i (.mat j))) })
    weights := p.weights.map (fun l => fromCells (fun i => c i .wt) l) }

/-- `rowloop`, apop_mapply.m4.c:234-247: the set and the output afterwards. `same`: the output is the set's vector. -/
def rowLoop (junk : α) (σ : List Nat) (f : (index : Nat) → Prog RowCell α) (p : Page α) (vout : Option (List α)) (same : Bool) :
    Run (Page α × Option (List α)) :=
  if vout.any (fun out => decide (out.length < maxsize p)) = true then .ub
  else do
    let c ← loop σ (maxsize p) (rowBody f vout.isSome same) (rowCells junk p)
    .done (rowBack c p, vout.map (fun out => (List.range (maxsize p)).map (fun i => if same then c i .vec else c i .out) ++ out.drop (maxsize p)))

/-! ## Matrices, element by element (apop_mapply.m4.c:189-209) -/

/-- One row after another. -/
def matRows (junk : α) (sch : Nat → List Nat) (f : α → Nat → α) (same : Bool) : Nat → List (List α) → List (List α) → Run (List (List α))
  | _, [], outs => .done outs
  | _, _ :: _, [] => .ub
  | k, r :: rs, o :: outs => do
    let o' ← vecLoop junk (sch k) f r (some o) same
    let rest ← matRows junk sch f same (k + 1) rs outs
    .done (o'.getD o :: rest)

/-- A column. -/
def colOf (junk : α) (j : Nat) (rows : List (List α)) : List α := rows.map (fun r => r.getD j junk)

/-- Write a column. -/
def setCol (j : Nat) (col : List α) (rows : List (List α)) : List (List α) := List.zipWith (fun v r => r.set j v) col rows

/-- One column after another; `n` columns are left. In place, the input is what has been written up to now. -/
def matCols (junk : α) (sch : Nat → List Nat) (f : α → Nat → α) (same : Bool) : (n j : Nat) → List (List α) → List (List α) → Run (List (List α))
  | 0, _, _, outs => .done outs
  | n + 1, j, ins, outs => do
    let o' ← vecLoop junk (sch j) f (colOf junk j ins) (some (colOf junk j outs)) same
    let outs' := setCol j (o'.getD []) outs
    matCols junk sch f same n (j + 1) (if same then outs' else ins) outs'

/-- Lines 189-209: rows if there are no more of them than columns. -/
def matMap (junk : α) (sch : Nat → List Nat) (f : α → Nat → α) (same : Bool) (m out : Mat α) : Run (Mat α) :=
  if m.size1 ≤ m.cols then do
    let r ← matRows junk sch f same 0 m.rows out.rows
    .done { out with rows := r }
  else do
    let r ← matCols junk sch f same m.cols 0 m.rows out.rows
    .done { out with rows := r }

/-! ## `apop_map` -/

/-- Where the results go. -/
inductive Inplace where
  | y | n | v
  deriving DecidableEq

def Fn.byRows : Fn α → Bool
  | .row _ => true
  | _ => false

def Fn.isScalar : Fn α → Bool
  | .scalar _ => true
  | _ => false

/-- `in->vector && ! in->matrix`. -/
def vecOnly (p : Page α) : Bool := p.vector.isSome && p.matrix.isNone

def vsize (p : Page α) : Nat := (p.vector.getD []).length
def msize1 (p : Page α) : Nat := (p.matrix.map Mat.size1).getD 0
def msize2 (p : Page α) : Nat := (p.matrix.map Mat.cols).getD 0

/-- A new set for the output, apop_mapply.m4.c:157-162. `apop_data_alloc` has an `int` for the number of columns; sizes beyond that are not modelled. -/
def newOut (junk : α) (byRows : Bool) (part : Char) (p : Page α) : Option (Page α) :=
  if byRows then some (Page.allocWith junk (max p.textsize.1 (maxsize p)) 0 0)
  else if part = 'v' ∨ vecOnly p = true then some (Page.allocWith junk (vsize p) 0 0)
  else if part = 'm' then some (Page.allocWith junk (msize1 p) (msize2 p) 0)
  else if part = 'a' then some (Page.allocWith junk (vsize p) (msize1 p) (msize2 p))
  else if part = 'r' then some (Page.allocWith junk (maxsize p) 0 0)
  else if part = 'c' then some (Page.allocWith junk (msize2 p) 0 0)
  else none

/-- The names of a new set, apop_mapply.m4.c:167-184. For part 'c' (line 183) the arguments are the wrong way around: the (no) column names of the new set are
added to the row names of the input. -/
def newNames (byRows : Bool) (part : Char) (p : Page α) (inn out : Names) : Names :=
  if part = 'v' ∨ vecOnly p = true then (out.stack (some inn) (some 'v') none).stack (some inn) (some 'r') none
  else if part = 'm' then (out.stack (some inn) (some 'r') none).stack (some inn) (some 'c') none
  else if byRows = false ∧ part = 'a' then inn.copy
  else if byRows = true ∨ part = 'r' then out.stack (some inn) (some 'r') none
  else out

/-- The new set with its names. -/
def named (byRows : Bool) (part : Char) (p : Page α) (o : Page α) : Page α :=
  match p.names, o.names with
  | some inn, some out => { o with names := some (newNames byRows part p inn out) }
  | _, _ => o

/-- The set the results are written to, and the input: in place, for rows and columns, a vector is made if there is none (lines 163-165). -/
def setup (junk : α) (byRows : Bool) (part : Char) (ip : Inplace) (p : Page α) : Page α × Option (Page α) :=
  match ip with
  | .y =>
    let p' := if (part = 'r' ∨ part = 'c') ∧ p.vector.isNone = true then { p with vector := some (List.replicate (maxsize p) junk) } else p
    (p', some p')
  | .v => (p, none)
  | .n => (p, (newOut junk byRows part p).map (named byRows part p))

/-- The vector part, lines 187-188. `sch 0` is the schedule. -/
def doVector (junk : α) (sch : Nat → List Nat) (f : α → Nat → α) (same : Bool) (v : Option (List α)) (out : Option (List α)) : Run (Option (List α)) :=
  match v with
  | none => .done out
  | some v => vecLoop junk (sch 0) f v out same

/-- The matrix part, lines 189-209. Without a set to write to nothing is to be seen of it; a set without a matrix is a NULL pointer. -/
def doMatrix (junk : α) (sch : Nat → List Nat) (f : α → Nat → α) (same : Bool) (m : Option (Mat α)) (out : Option (Mat α)) : Run (Option (Mat α)) :=
  match m, out with
  | none, out => .done out
  | some _, none => .ub
  | some m, some out => do
    let r ← matMap junk sch f same m out
    .done (some r)

/-- A function on numbers, lines 187-209, on the output set `o`. -/
def scalarMap (junk : α) (sch : Nat → List Nat) (f : α → Nat → α) (part : Char) (same : Bool) (p o : Page α) : Run (Page α) := do
  let v ← (if part = 'v' ∨ part = 'a' then doVector junk sch f same p.vector o.vector else .done o.vector : Run (Option (List α)))
  let m ← (if part = 'm' ∨ part = 'a' then doMatrix junk (fun k => sch (k + 1)) f same p.matrix o.matrix else .done o.matrix : Run (Option (Mat α)))
  .done { o with vector := v, matrix := m }

/-- The columns of a matrix. -/
def columns (junk : α) (m : Mat α) : List (List α) := (List.range m.cols).map (fun j => colOf junk j m.rows)

/-- A function on vectors, on the rows or the columns (line 214): the matrix and the output. -/
def vecMap (junk : α) (σ : List Nat) (f : (size index : Nat) → Prog Nat α) (part : Char) (m : Mat α) (vout : Option (List α)) :
    Run (Mat α × Option (List α)) :=
  if part = 'r' then do
    let (rows, out) ← forLoop junk σ f m.rows m.cols vout
    .done ({ m with rows := rows }, out)
  else do
    let (cols, out) ← forLoop junk σ f (columns junk m) m.size1 vout
    .done ({ m with rows := (List.range m.size1).map (fun i => cols.map (fun c => c.getD i junk)) }, out)

/-- The output set with an error mark; made if there is none (line 212). -/
def withErr (e : Char) (o : Option (Page α)) : Page α := { o.getD Page.empty with error := some e }

/-- `apop_map`, one page, apop_mapply.m4.c:122-216: the input set afterwards, and the output set, or NULL. In place these are the same set. The return
with an error on lines 147-150 goes through a macro that always marks the error 'E' (see C42). A function on vectors called on numbers (parts 'v', 'm', 'a')
is undefined. -/
def mapPage (junk : α) (sch : Nat → List Nat) (fn : Fn α) (part : Char) (ip : Inplace) (p : Page α) : Run (Page α × Option (Page α)) :=
  if (part = 'c' ∨ part = 'r') ∧ fn.isScalar = true then .done (p, some { (Page.empty : Page α) with error := some 'E' })
  else
    let (p, o) := setup junk fn.byRows part ip p
    match fn with
    | .row f => do
      let (p', v) ← rowLoop junk (sch 0) f p (o.bind Page.vector) (ip = .y)
      match ip with
      | .y => .done ({ p' with vector := v }, some { p' with vector := v })
      | _ => .done (p', o.map (fun o => { o with vector := v }))
    | .scalar f =>
      match o with
      | none => .done (p, none)
      | some o => do
        let o' ← scalarMap junk sch f part (ip = .y) p o
        .done (if ip = .y then o' else p, some o')
    | .vec f =>
      if part = 'r' ∨ part = 'c' then
        match p.matrix with
        | none => .done (if ip = .y then withErr 'p' o else p, some (withErr 'p' o))
        | some m => do
          let (m', v) ← vecMap junk (sch 0) f part m (o.bind Page.vector)
          match ip with
          | .y => .done ({ p with matrix := some m', vector := v }, some { p with matrix := some m', vector := v })
          | _ => .done ({ p with matrix := some m' }, o.map (fun o => { o with vector := v }))
      else if (p.vector.isSome = true ∧ (part = 'v' ∨ part = 'a')) ∨ (p.matrix.isSome = true ∧ (part = 'm' ∨ part = 'a')) then .ub
      else .done (p, o)

/-- Does an output set, if any, come first in a list of pages? -/
def consOut (o : Option (Page α)) (rest : Option (List (Page α))) : Run (Option (List (Page α))) :=
  match o, rest with
  | some o, some rest => .done (some ({ o with error := ((rest.head?).bind Page.error).or o.error } :: rest))
  | _, _ => .ub

/-- `apop_map` of a list of pages, lines 217-221. With more pages and no output set (`inplace='v'`), line 218 writes through a NULL pointer. An error in a page is copied to
the page before. The early return with an error does not go on to the next page. -/
def map (junk : α) (sch : Nat → Nat → List Nat) (fn : Fn α) (part : Char) (ip : Inplace) (all : Bool) :
    Nat → List (Page α) → Run (List (Page α) × Option (List (Page α)))
  | _, [] => .done ([], none)
  | k, p :: ps => do
    let (p', o) ← mapPage junk (sch k) fn part ip p
    if all = false ∨ ps.isEmpty = true ∨ ((part = 'c' ∨ part = 'r') ∧ (fn.isScalar = true ∨ (fn.byRows = false ∧ p.matrix.isNone = true))) then
      .done (p' :: ps, o.map (fun o => if ip = .y then o :: ps else [o]))
    else do
      let (ps', os) ← map junk sch fn part ip all (k + 1) ps
      let r ← consOut o os
      .done (p' :: ps', r)

/-! ## `apop_map_sum` -/

/-- `apop_vector_sum`, apop_stats.m4.c:15-21. -/
def vsum [Add α] [Zero α] (l : List α) : α := l.foldl (· + ·) 0

/-- `apop_matrix_sum`, apop_stats.m4.c:305-312. -/
def msum [Add α] [Zero α] (m : Mat α) : α := m.rows.foldl (fun s r => r.foldl (· + ·) s) 0

/-- The sum of what was mapped, apop_mapply.m4.c:509-510. -/
def pageSum [Add α] [Zero α] (o : Page α) : α := (match o.vector with | none => 0 | some v => vsum v) + (match o.matrix with | none => 0 | some m => msum m)

/-- `apop_map_sum`, apop_mapply.m4.c:486-518. A NULL set gives zero. -/
def mapSum [Add α] [Zero α] (junk : α) (sch : Nat → Nat → List Nat) (fn : Fn α) (part : Char) (all : Bool) : Nat → List (Page α) → Run α
  | _, [] => .done 0
  | k, p :: ps => do
    let (_, o) ← mapPage junk (sch k) fn part .n p
    match o with
    | none => .ub
    | some o =>
      if all = false ∨ ps.isEmpty = true then .done (pageSum o + 0)
      else do
        let r ← mapSum junk sch fn part all (k + 1) ps
        .done (pageSum o + r)

/-! ## The older functions -/

/-- `apop_vector_map`, apop_mapply.m4.c:361-365 (`none` is NULL). -/
def vectorMap (junk : α) (σ : List Nat) (f : α → α) (v : Option (List α)) : Run (Option (List α)) :=
  match v with
  | none => .done none
  | some v => vecLoop junk σ (fun x _ => f x) v (some (List.replicate v.length junk)) false

/-- `apop_matrix_map`, apop_mapply.m4.c:328-332: the matrix afterwards and the vector. -/
def matrixMap (junk : α) (σ : List Nat) (f : Nat → Prog Nat α) (m : Option (Mat α)) : Run (Option (Mat α × List α)) :=
  match m with
  | none => .done none
  | some m => do
    let (m', v) ← vecMap junk σ (fun size _ => f size) 'r' m (some (List.replicate m.size1 junk))
    .done (some (m', v.getD []))

end Apop.Map
