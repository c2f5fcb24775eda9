import Verif.Views.Model

/-! # Removing rows and columns: `apop_data_rm_rows` (apop_data.m4.c:1416-1458),
`apop_data_rm_columns`, `apop_data_prune_columns_base` (627-755),
`apop_data_listwise_delete` (apop_missing_data.m4.c:33-78) -/

namespace Apop.Rows
open Apop.Views
variable {α : Type}

/-- `maxsize` of the macro `Get_vmsizes`, apop_internal.h:8-16. Sizes below 2^31. The weights are
not counted. -/
def maxsize (p : Page α) : Nat :=
  max ((p.vector.map List.length).getD 0) (max ((p.matrix.map Mat.size1).getD 0) p.textsize.1)

/-- `apop_data_memcpy(Apop_r(in, o), Apop_r(in, i))`, apop_data.m4.c:1438. -/
def copyRow (p : Page α) (o i : Nat) : Res (Page α) := do
  let (v, _) ← Page.memcpyPage (rowView p o 1) (rowView p i 1)
  .ok (putRows p o v)

/-- `drop && drop[i]`: the array may be NULL; reading past its end is undefined. -/
def dropAt (drop : Option (List Bool)) (i : Nat) : Res Bool :=
  match drop with
  | none => .ok false
  | some d => rd d i

/-- `drop_row` for row `i`, apop_data.m4.c:1431-1436; the callback (if any) is given the view
`Apop_r(in, i)` of the data as it is then. The callback is a pure function of its view. -/
def dropRow (drop : Option (List Bool)) (f : Option (Page α → Bool)) (p : Page α) (i : Nat) : Res Bool := do
  let d ← dropAt drop i
  if d then .ok true
  else .ok (match f with | some f => f (rowView p i 1) | none => false)

/-- The shifting loop, apop_data.m4.c:1430-1441: `k` rows to go, the next one is `i`; returns the
data and `outlength`. -/
def shiftLoop (drop : Option (List Bool)) (f : Option (Page α → Bool)) :
    Nat → Nat → Nat → Page α → Res (Page α × Nat)
  | 0, _, o, p => .ok (p, o)
  | k + 1, i, o, p => do
    let d ← dropRow drop f p i
    if d then shiftLoop drop f k (i + 1) o p
    else do
      let p ← (if o ≠ i then copyRow p o i else .ok p : Res (Page α))
      shiftLoop drop f k (i + 1) (o + 1) p

/-- Freeing everything when no row is left, apop_data.m4.c:1442-1448. -/
def clear (p : Page α) : Page α :=
  { p with vector := none, weights := none, matrix := none, text := [], textsize := (0, 0) }

/-- Trimming, apop_data.m4.c:1450-1459 (parts that own their memory: `apop_*_realloc` refuses views).
`names->row` keeps its block, so only the count shrinks; `rowhash` is left alone. -/
def trim (junk : α) (p : Page α) (o : Nat) : Page α :=
  { p with
    vector := p.vector.map (fun v => v.take (min v.length o))
    weights := p.weights.map (fun v => v.take (min v.length o))
    matrix := p.matrix.map (fun m => Stack.reallocMat junk m (min m.size1 o) m.cols)
    text := if p.text = [] then p.text else Stack.growText p.text (min o p.textsize.1) p.textsize.2
    textsize := if p.text = [] then p.textsize else (min o p.textsize.1, p.textsize.2)
    names := p.names.map (fun n => if o < n.row.length then { n with row := n.row.take o } else n) }

/-- `apop_data_rm_rows`, apop_data.m4.c:1416-1460, for a non-NULL set. -/
def rmRows (junk : α) (p : Page α) (drop : Option (List Bool)) (f : Option (Page α → Bool)) :
    Res (Page α) :=
  if drop.isNone ∧ f.isNone then .ok p
  else do
    let (p, o) ← shiftLoop drop f (maxsize p) 0 0 p
    .ok (trim junk (if o = 0 then clear p else p) o)

/-- The loop of `apop_name_rm_columns`, apop_data.m4.c:630-634: what is added to the new structure.
`i` is the index into `drop`. -/
def keepCols (drop : List Bool) : Nat → List CStr → Res (List CStr)
  | _, [] => .ok []
  | i, s :: ss => do
    let d ← rd drop i
    let rest ← keepCols drop (i + 1) ss
    .ok (if d then rest else s :: rest)

/-- `apop_name_rm_columns`, apop_data.m4.c:627-643: the column list is replaced and counted down; the
hash block stays as it was. -/
def nameRmColumns (n : Names) (drop : List Bool) : Res Names := do
  let c ← keepCols drop 0 n.col
  .ok { n with col := c }

/-- The counting loop of `apop_matrix_rm_columns`, apop_data.m4.c:649-651. -/
def countKept (drop : List Bool) : Nat → Nat → Res Nat
  | _, 0 => .ok 0
  | i, k + 1 => do
    let d ← rd drop i
    let c ← countKept drop (i + 1) k
    .ok (if d then c else c + 1)

/-- The copying loop of `apop_matrix_rm_columns`, apop_data.m4.c:655-661. -/
def copyKept (drop : List Bool) (src : Mat α) : Nat → Nat → Nat → Mat α → Res (Mat α)
  | _, 0, _, out => .ok out
  | i, k + 1, j, out => do
    let d ← rd drop i
    if d then copyKept drop src (i + 1) k j out
    else do
      let c ← Stack.getColRows i src.rows
      let rows ← Stack.setColRows j out.rows c
      copyKept drop src (i + 1) k (j + 1) { out with rows := rows }

/-- `apop_matrix_rm_columns`, apop_data.m4.c:646-663. -/
def matRmColumns (junk : α) (m : Mat α) (drop : List Bool) : Res (Option (Mat α)) := do
  let ct ← countKept drop 0 m.cols
  if ct = m.cols then .ok (some m)
  else if ct = 0 then .ok none
  else do
    let out ← copyKept drop m 0 m.cols 0 (Mat.fresh junk m.size1 ct)
    .ok (some out)

/-- `apop_data_rm_columns`, apop_data.m4.c:682-687: a NULL matrix (`in->size2`) or NULL names is
dereferenced. -/
def rmColumns (junk : α) (p : Page α) (drop : List Bool) : Res (Page α) :=
  match p.matrix with
  | none => .ub
  | some m => do
    let m' ← matRmColumns junk m drop
    match p.names with
    | none => .ub
    | some n => do
      let n' ← nameRmColumns n drop
      .ok { p with matrix := m', names := some n' }

/-- The inner loop over the requested names, apop_data.m4.c:738-743: the first one that is not used
yet and equal up to case; returns whether it was found and the new `used_field`. -/
def claim (col : CStr) : List CStr → List Bool → Bool × List Bool
  | r :: rs, u :: us =>
    if !u && caseEq col r then (true, true :: us)
    else
      let (k, us') := claim col rs us
      (k, u :: us')
  | _, us => (false, us)

/-- The outer loop over the columns, apop_data.m4.c:736-745: `rm_list`. -/
def rmList (req : List CStr) : List CStr → List Bool → List Bool
  | [], _ => []
  | c :: cs, used =>
    let (k, used') := claim c req used
    (!k) :: rmList req cs used'

/-- `apop_data_prune_columns_base`, apop_data.m4.c:723-752, for a non-NULL set. `rm_list` has
`names->colct` entries. -/
def prune (junk : α) (p : Page α) (req : List CStr) : Res (Page α) :=
  match p.matrix with
  | none => .ok p
  | some _ =>
    match p.names with
    | none => .ub
    | some n => rmColumns junk p (rmList req n.col (List.replicate req.length false))

/-- `vsize ? vsize : msize1`, apop_missing_data.m4.c:42, 45. -/
def numRows (p : Page α) : Nat :=
  let vsize := (p.vector.map List.length).getD 0
  if vsize ≠ 0 then vsize else (p.matrix.map Mat.size1).getD 0

/-- Is there a NaN in row `i`, columns `firstcol .. msize2-1`, apop_missing_data.m4.c:45-51? Elements
are read with `apop_data_get`: column −1 is the vector, and out of range gives a value that is not NaN
(see `C11_get_body`). -/
def rowHasNaN (isNaN : α → Bool) (p : Page α) (i : Nat) : Bool :=
  decide (i < numRows p) && (((p.vector.bind (·[i]?)).map isNaN).getD false ||
  ((p.matrix.bind (fun m => m.rows[i]?)).map (fun r => r.any isNaN)).getD false)

/-- The text test of row `i`, apop_missing_data.m4.c:55-63. -/
def rowHasNaNString (nanString : Option CStr) (p : Page α) (i : Nat) : Bool :=
  match nanString with
  | none => false
  | some s => ((p.text[i]?).map (fun r => r.any (caseEq s))).getD false

/-- The array `marked`, apop_missing_data.m4.c:42-63 (writes past its end: see `weightsOverrun`). -/
def marked (isNaN : α → Bool) (nanString : Option CStr) (p : Page α) : List Bool :=
  (List.range (max (numRows p) p.textsize.1)).map (fun i =>
    rowHasNaN isNaN p i || ((p.weights.bind (·[i]?)).map isNaN).getD false || rowHasNaNString nanString p i)

/-- `for (i..wsize) if isnan(weights[i]) marked[i] = 1`, apop_missing_data.m4.c:52-54: a weights vector
longer than `marked` with a NaN beyond its end is written out of bounds. -/
def weightsOverrun (isNaN : α → Bool) (len : Nat) (w : Option (List α)) : Bool :=
  match w with
  | none => false
  | some w => (w.drop len).any isNaN

/-- `apop_data_listwise_delete(d, inplace)`, apop_missing_data.m4.c:33-78, on a page chain; returns
the result (`none` = NULL) and the input afterwards. `apop_data_rm_rows` works on the first page. -/
def listwise (junk : α) (isNaN : α → Bool) (nanString : Option CStr) (d : List (Page α)) (inplace : Bool) :
    Res (Option (List (Page α)) × List (Page α)) :=
  match d with
  | [] => .ok (none, [])
  | p :: rest =>
    if (p.matrix.map Mat.size1).getD 0 = 0 ∧ (p.vector.map List.length).getD 0 = 0 ∧ p.textsize.1 = 0 then
      .ok (none, d)
    else
      let mk := marked isNaN nanString p
      if weightsOverrun isNaN mk.length p.weights then .ub
      else if mk.all id then .ok (none, d)
      else if inplace then do
        let q ← rmRows junk p (some mk) none
        .ok (some (q :: rest), q :: rest)
      else do
        let c ← Page.copy junk d
        match c with
        | [] => .ub
        | c :: cs => do
          let q ← rmRows junk c (some mk) none
          .ok (some (q :: cs), d)

end Apop.Rows
