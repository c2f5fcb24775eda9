import Verif.Stack.Model

/-! # Views: `Apop_subm`, `Apop_subvector`, `Apop_rv`, `Apop_cv`, `Apop_rs`, `Apop_cs`
(apop.m4.h:759-918)

The vector and matrix macros compute addresses, so they are modelled on addresses: a view is an
offset into a block plus sizes and strides. `Apop_rs`/`Apop_cs` also cut the names and the text; they
are modelled on the `Page` type, where a part is its list of elements. -/

namespace Apop.Views

/-- A `gsl_vector` as an address range: element `k` is at `off + k*stride`. -/
structure VecRef where
  off : Nat
  size : Nat
  stride : Nat
  deriving DecidableEq, Repr

/-- A `gsl_matrix` as an address range: element (i,j) is at `off + i*tda + j`. -/
structure MatRef where
  off : Nat
  size1 : Nat
  size2 : Nat
  tda : Nat
  deriving DecidableEq, Repr

/-- Address of element `k` (`gsl_vector_ptr`). -/
def VecRef.at (v : VecRef) (k : Nat) : Nat := v.off + k * v.stride

/-- Address of element (i,j) (`gsl_matrix_ptr`). -/
def MatRef.at (m : MatRef) (i j : Nat) : Nat := m.off + i * m.tda + j

/-- An `int` expression compared with, or stored in, a `size_t`: taken modulo 2^64. -/
def toSize (x : Int) : Nat := (x % 2 ^ 64).toNat

/-- `Apop_subm(m, srow, scol, nrows, ncols)`, apop.m4.h:759-766. The arguments are `int`s whose
sums do not overflow; the comparisons with `size1`, `size2` are unsigned. (The range check that a
debug build of GSL makes inside `gsl_matrix_ptr` is not modelled.) -/
def subm (m : Option MatRef) (srow scol nrows ncols : Int) : Option MatRef :=
  match m with
  | none => none
  | some m =>
    if m.size1 < toSize (srow + nrows) ∨ srow < 0 ∨ m.size2 < toSize (scol + ncols) ∨ scol < 0 then none
    else some ⟨m.at srow.toNat scol.toNat, toSize nrows, toSize ncols, m.tda⟩

/-- `Apop_subvector(v, start, len)`, apop.m4.h:847-849. -/
def subvector (v : Option VecRef) (start len : Int) : Option VecRef :=
  match v with
  | none => none
  | some v =>
    if v.size < toSize (start + len) ∨ start < 0 then none
    else some ⟨v.off + start.toNat * v.stride, toSize len, v.stride⟩

/-- `Apop_rv(d, row)`, apop.m4.h:811-816, and `Apop_mrv(m, row)`, 778, with `m` the matrix of the
data set (a NULL data set is the same as a NULL matrix here). -/
def rv (m : Option MatRef) (row : Int) : Option VecRef :=
  match m with
  | none => none
  | some m =>
    if m.size1 ≤ toSize row ∨ row < 0 then none
    else some ⟨m.at row.toNat 0, m.size2, 1⟩

/-- `Apop_cv(d, col)`, apop.m4.h:836-843, and `Apop_mcv(m, col)`, 796 (where `vec` is NULL):
column −1 is the vector. -/
def cv (vec : Option VecRef) (m : Option MatRef) (col : Int) : Option VecRef :=
  if col = -1 then vec
  else match m with
  | none => none
  | some m =>
    if m.size2 ≤ toSize col ∨ col < -1 then none
    else some ⟨m.at 0 col.toNat, m.size1, m.tda⟩

variable {α : Type}

/-- `Apop_subvector` on the list of elements, for nonnegative arguments (see `C41_subvector`). -/
def cut (l : List α) (start len : Nat) : Option (List α) :=
  if l.length < start + len then none else some ((l.drop start).take len)

/-- Names part of `Apop_rs`, apop.m4.h:861-874. `rowct` is `MIN(1, MAX(rowct-rownum, 0))`,
whatever `len` is. -/
def rowNames (n : Names) (rownum : Nat) : Names :=
  { n with
    row := (n.row.drop rownum).take (min 1 (n.row.length - rownum))
    rowhash := if rownum < n.row.length then n.rowhash.drop rownum else [] }

/-- `Apop_rs(d, rownum, len)`, apop.m4.h:858-882, for a non-NULL `d`, `rownum ≥ 0` and `len ≥ 0`
(a negative `rownum` gives NULL). `error` and `more` are zero in the view. The view's `text`
pointer is `&d->text[rownum]`; only the `textsize` rows it announces are kept here. (With `len = 0`
the unsigned comparison `textsize[0] > rownum + len - 1` is with 2^64-1 if also `rownum = 0`; the
value is 0 in either case.) -/
def rowView (p : Page α) (rownum len : Nat) : Page α :=
  let tlen := if p.textsize.1 ≥ rownum + len then len else 0
  { vector := p.vector.bind (fun v => cut v rownum len)
    matrix := p.matrix.bind (fun m => (cut m.rows rownum len).map (fun r => ⟨r, m.cols⟩))
    weights := p.weights.bind (fun v => cut v rownum len)
    names := p.names.map (fun n => rowNames n rownum)
    text := (p.text.drop rownum).take tlen
    textsize := (tlen, p.textsize.2) }

/-- Names part of `Apop_cs`, apop.m4.h:903-917: the text list is NULL although `textct` is kept. -/
def colNames (n : Names) (colnum len : Nat) : Names :=
  { n with
    vector := none
    col := (n.col.drop colnum).take (min len (n.col.length - colnum))
    colhash := if colnum < n.col.length then n.colhash.drop colnum else []
    text := [], texthash := [] }

/-- `Apop_cs(d, colnum, len)`, apop.m4.h:892-918, for `colnum ≥ 0` and `len ≥ 1`. Simplification:
the view announces `textct` text names with a NULL list; the model gives it an empty list
(`apop_name_find` with type 't' on such a view would dereference NULL). -/
def colView (p : Page α) (colnum len : Nat) : Option (Page α) :=
  match p.matrix with
  | none => none
  | some m =>
    if m.cols < colnum + len then none
    else some
      { vector := none
        weights := p.weights
        matrix := some ⟨m.rows.map (fun r => (r.drop colnum).take len), len⟩
        names := p.names.map (fun n => colNames n colnum len) }

/-- Write the elements of a view that starts at `o` back into the list it views. -/
def putAt (l : List α) (o : Nat) (xs : List α) : List α := l.take o ++ xs ++ l.drop (o + xs.length)

/-- The effect on the parent of having written to the view `Apop_rs(p, o, len)` through its
pointers: `v` is the content of the view afterwards. Cells, row names, column names and text names are
reached through shared pointers; `title`, the vector name, `error` and `textsize` belong to the
temporary struct and are lost, and so are row names added to a view that had none (they go to a block of
the temporary). Hashes are shared too, but no modelled writer changes them. -/
def putRows (p : Page α) (o : Nat) (v : Page α) : Page α :=
  { p with
    vector := match v.vector with
      | some xs => p.vector.map (fun l => putAt l o xs)
      | none => p.vector
    matrix := match v.matrix with
      | some xs => p.matrix.map (fun m => { m with rows := putAt m.rows o xs.rows })
      | none => p.matrix
    weights := match v.weights with
      | some xs => p.weights.map (fun l => putAt l o xs)
      | none => p.weights
    text := putAt p.text o v.text
    names := match v.names with
      | some vn => p.names.map (fun n =>
          { n with row := putAt n.row o (vn.row.take (rowNames n o).row.length), col := vn.col, text := vn.text })
      | none => p.names }

end Apop.Views
