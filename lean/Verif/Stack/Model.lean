import Verif.Data.Model

/-! # `apop_vector_stack`, `apop_matrix_stack` (apop_linear_algebra.m4.c:186-300),
`apop_data_stack`, `apop_data_split` (apop_data.m4.c:353-620) -/

namespace Apop.Stack
variable {α : Type}

/-- `gsl_matrix_set_row`: out of range or of the wrong length is a GSL error (the default handler
aborts), here `ub`. -/
def setRow (m : Mat α) (i : Nat) (r : List α) : Res (Mat α) :=
  if i < m.rows.length ∧ r.length = m.cols then .ok { m with rows := m.rows.set i r } else .ub

/-- The loop of `gsl_matrix_set_row` calls, apop_linear_algebra.m4.c:266-269 and 271-274: rows
`i, i+1, ..` of `m` are overwritten by the given rows. -/
def putRows (m : Mat α) : Nat → List (List α) → Res (Mat α)
  | _, [] => .ok m
  | i, r :: rs => do
    let m ← setRow m i r
    putRows m (i + 1) rs

/-- `Apop_mcv(m, j)` on the list of rows: the j-th column. -/
def getColRows (j : Nat) : List (List α) → Res (List α)
  | [] => .ok []
  | r :: rs => do
    let x ← rd r j
    let xs ← getColRows j rs
    .ok (x :: xs)

/-- `gsl_matrix_set_col` on the list of rows. -/
def setColRows (j : Nat) : List (List α) → List α → Res (List (List α))
  | [], [] => .ok []
  | r :: rs, x :: xs => do
    let r ← wr r j x
    let rs ← setColRows j rs xs
    .ok (r :: rs)
  | _, _ => .ub

/-- The loop of `gsl_matrix_set_col` calls, apop_linear_algebra.m4.c:286-287, 289-290: columns
`k, .., k+n-1` of `src` go to columns `off+k, ..` of `m`. -/
def putCols (m : Mat α) (off : Nat) (src : Mat α) : (n k : Nat) → Res (Mat α)
  | 0, _ => .ok m
  | n + 1, k => do
    let c ← getColRows k src.rows
    let rows ← setColRows (off + k) m.rows c
    putCols { m with rows := rows } off src n (k + 1)

/-- `apop_matrix_realloc` at the level of rows: cells that fit are kept, new ones hold `junk`
(justified by `C07_matrix_realloc`; views, which it refuses, are not modelled here). -/
def reallocMat (junk : α) (m : Mat α) (h w : Nat) : Mat α :=
  ⟨(m.rows.take h).map (fun r => r.take w ++ List.replicate (w - r.length) junk) ++
    List.replicate (h - m.rows.length) (List.replicate w junk), w⟩

/-- `apop_matrix_stack`, apop_linear_algebra.m4.c:242-293; the result `none` is NULL. A `posn`
other than 'r' is treated as 'c', as in the code. -/
def matStack (junk : α) (m1 m2 : Option (Mat α)) (posn : Char) (inplace : Bool) :
    Res (Option (Mat α)) :=
  match m1, m2 with
  | none, none => .ok none
  | none, some m2 => .ok (some m2)
  | some m1, none => .ok (some m1)
  | some m1, some m2 =>
    if posn = 'r' then
      if m1.cols ≠ m2.cols then .ok none
      else do
        let out ← (if inplace then .ok (reallocMat junk m1 (m1.size1 + m2.size1) m1.cols)
          else putRows (Mat.fresh junk (m1.size1 + m2.size1) m1.cols) 0 m1.rows : Res (Mat α))
        let out ← putRows out m1.size1 m2.rows
        .ok (some out)
    else
      if m1.size1 ≠ m2.size1 then .ok none
      else do
        let out ← (if inplace then .ok (reallocMat junk m1 m1.size1 (m1.cols + m2.cols))
          else putCols (Mat.fresh junk m1.size1 (m1.cols + m2.cols)) 0 m1 m1.cols 0 : Res (Mat α))
        let out ← putCols out m1.cols m2 m2.cols 0
        .ok (some out)

/-- `apop_vector_stack`, apop_linear_algebra.m4.c:186-217. Both branches (realloc in place, or a new
block whose head is filled by memcpy) end with `v1` followed by uninitialised cells that the final
memcpy fills. -/
def vecStack (junk : α) (v1 v2 : Option (List α)) : Option (List α) :=
  match v1, v2 with
  | none, none => none
  | none, some v2 => some v2
  | some v1, none => some v1
  | some v1, some v2 =>
    let out := v1 ++ List.replicate v2.length junk
    some (out.take v1.length ++ v2)

/-- `apop_text_alloc` at the level of strings, for a request that does not shrink the grid in one
direction while growing it in the other (see `C09_text_alloc`): new cells are blank. -/
def growText (g : List (List CStr)) (r c : Nat) : List (List CStr) :=
  (g.take r).map (fun row => row.take c ++ List.replicate (c - row.length) []) ++
    List.replicate (r - g.length) (List.replicate c [])

/-- Text loop for posn 'c', apop_data.m4.c:417-421: row `i` of `m2` goes to row `i`, from column
`base`. -/
def putTextCols (g : List (List CStr)) (base : Nat) : Nat → List (List CStr) → Res (List (List CStr))
  | _, [] => .ok g
  | i, r :: rs => do
    let g ← Page.copyTextRow g i base r
    putTextCols g base (i + 1) rs

/-- Text block of `apop_data_stack`, apop_data.m4.c:393-424. The Boolean is `false` after an early
return with error 'd'. -/
def stackText (posn : Char) (out m2 : Page α) : Res (Page α × Bool) :=
  if m2.text = [] then .ok (out, true)
  else if posn = 'r' then
    if out.text ≠ [] ∧ m2.textsize.2 ≠ out.textsize.2 then .ok ({ out with error := some 'd' }, false)
    else do
      let base := out.textsize.1
      let g ← Page.copyText (growText out.text (base + m2.textsize.1) m2.textsize.2) base m2.text
      .ok ({ out with text := g, textsize := (base + m2.textsize.1, m2.textsize.2) }, true)
  else
    if out.text ≠ [] ∧ m2.textsize.1 ≠ out.textsize.1 then .ok ({ out with error := some 'd' }, false)
    else do
      let base := out.textsize.2
      let g ← putTextCols (growText out.text m2.textsize.1 (base + m2.textsize.2)) base 0 m2.text
      .ok ({ out with text := g, textsize := (m2.textsize.1, base + m2.textsize.2),
                      names := out.names.map (fun n => n.stack m2.names (some 't') none) }, true)

/-- Name block at the end of `apop_data_stack`, apop_data.m4.c:425-431. `m1names` is what
`m1->names` is at that point; `rows`/`cols` are `GSL_MAX(vsize, msize1)` and `msize2` of the original
`m1`. -/
def stackNames (posn : Char) (m1names outnames m2names : Option Names) (rows cols : Nat) :
    Res (Option Names) :=
  match m2names with
  | none => .ok outnames
  | some n2 =>
    if (posn = 'r' ∧ n2.row ≠ []) ∨ (posn = 'c' ∧ n2.col ≠ []) then
      match m1names, outnames with
      | none, _ => .ub       -- m1->names->rowct with m1->names == NULL
      | _, none => .ub
      | some n1, some o =>
        let min := if posn = 'r' then n1.row.length else n1.col.length
        let max := if posn = 'r' then rows else cols
        let o := o.addAll (List.replicate (max - min) []) posn
        .ok (some (o.stack (some n2) (some posn) none))
    else .ok outnames

/-- The block for posn 'c' and vectors, apop_data.m4.c:376-387. -/
def stackVecCol (junk : α) (out m2 : Page α) : Res (Page α) :=
  match m2.vector with
  | none => .ok out
  | some v2 =>
    match out.vector with
    | some _ => do
      let mat ← matStack junk out.matrix (some ⟨v2.map (fun x => [x]), 1⟩) 'c' true
      let nm := out.names.map (fun n => n.stack m2.names (some 'c') (some 'v'))
      let nm := match m2.names with
        | some n2 => if n2.vector = none ∧ n2.col ≠ [] then nm.map (fun n => (n.add (some [118]) 'c').1)
                     else nm
        | none => nm
      .ok { out with matrix := mat, names := nm }
    | none =>
      match m2.names with
      | none => .ub      -- m2->names->vector
      | some n2 => .ok { out with vector := some v2,
                                  names := out.names.map (fun n => (n.add n2.vector 'v').1) }

/-- Body of `apop_data_stack` after the choice of `out`, apop_data.m4.c:373-432.
`m1names` maps the current `out->names` to the current `m1->names` (the identity when in place). -/
def stackBody (junk : α) (m1 m2 out : Page α) (m1names : Option Names → Option Names) (posn : Char) :
    Res (Page α) := do
  let vsize := (m1.vector.map List.length).getD 0
  let msize1 := (m1.matrix.map Mat.size1).getD 0
  let msize2 := (m1.matrix.map Mat.cols).getD 0
  let out := if m2.names.isSome ∧ out.names.isNone then { out with names := some Names.alloc } else out
  let out ← (if posn = 'c' then stackVecCol junk out m2 else .ok out : Res (Page α))
  let mat ← matStack junk out.matrix m2.matrix posn true
  let out := { out with matrix := mat }
  let out := if posn = 'r' then
      { out with vector := vecStack junk out.vector m2.vector
                 weights := vecStack junk out.weights m2.weights } else out
  let (out, go) ← stackText posn out m2
  if go then do
    let nm ← stackNames posn (m1names out.names) out.names m2.names (max vsize msize1) msize2
    .ok { out with names := nm }
  else .ok out

/-- `apop_data_stack(m1, m2, posn, inplace)`, apop_data.m4.c:353-433, on page chains (the empty list is
NULL; `posn` already defaulted to 'r'). Result: the returned chain and the chain `m1` points to
afterwards. Lines 366-371: when the initial copy reports an error, `m1->more` is left NULL. -/
def stack (junk : α) (m1 m2 : List (Page α)) (posn : Char) (inplace : Bool) :
    Res (List (Page α) × List (Page α)) :=
  if posn ≠ 'r' ∧ posn ≠ 'c' then .ok ([], m1)
  else
    match m1, m2 with
    | [], m2 => do
      let c ← Page.copy junk m2
      .ok (c, [])
    | a :: as, [] =>
      if inplace then .ok (a :: as, a :: as)
      else do
        let c ← Page.copy junk (a :: as)
        .ok (c, a :: as)
    | a :: as, b :: _ =>
      if inplace then do
        let o ← stackBody junk a b a id posn
        .ok (o :: as, o :: as)
      else do
        let c ← Page.copy junk [a]
        match c with
        | [] => .ub
        | out :: _ =>
          if out.error.isSome then .ok ([out], [a])
          else do
            let o ← stackBody junk a b out (fun _ => a.names) posn
            .ok ([o], a :: as)

/-! ## `apop_data_split` -/

/-- `gsl_vector_subvector(v, off, n)` then copied: out of range (also n = 0 at the very end) is a GSL
error, `ub`. -/
def subvec (v : List α) (off n : Nat) : Res (List α) :=
  if n ≠ 0 ∧ off + n ≤ v.length then .ok ((v.drop off).take n) else .ub

/-- `gsl_matrix_submatrix` of whole rows. -/
def subRows (m : Mat α) (off n : Nat) : Res (Mat α) :=
  if n ≠ 0 ∧ m.cols ≠ 0 ∧ off + n ≤ m.size1 then .ok ⟨(m.rows.drop off).take n, m.cols⟩ else .ub

/-- `gsl_matrix_submatrix` of whole columns. -/
def subCols (m : Mat α) (off n : Nat) : Res (Mat α) :=
  if n ≠ 0 ∧ m.size1 ≠ 0 ∧ off + n ≤ m.cols then
    .ok ⟨m.rows.map (fun r => (r.drop off).take n), n⟩ else .ub

/-- Apply to an optional part. -/
def optM {β γ : Type} (x : Option β) (f : β → Res γ) : Res (Option γ) :=
  match x with
  | none => .ok none
  | some b => do
    let c ← f b
    .ok (some c)

/-- The text loops, apop_data.m4.c:612-617: row `i` goes to row `i` of the first grid or row
`i - k` of the second. -/
def splitText (k : Nat) : Nat → List (List CStr) → List (List CStr) → List (List CStr) →
    Res (List (List CStr) × List (List CStr))
  | _, [], g0, g1 => .ok (g0, g1)
  | i, r :: rs, g0, g1 =>
    if i ≥ k then do
      let g1 ← Page.copyTextRow g1 (i - k) 0 r
      splitText k (i + 1) rs g0 g1
    else do
      let g0 ← Page.copyTextRow g0 i 0 r
      splitText k (i + 1) rs g0 g1

/-- Row split of the text, apop_data.m4.c:600-618 (executed for 'r', not for 'R'). -/
def splitTextRows (p o0 o1 : Page α) (k : Nat) : Res (Page α × Page α) :=
  if p.textsize.1 ≠ 0 ∧ p.textsize.2 ≠ 0 then do
    let n1 := o1.names.map (fun n => n.stack p.names (some 't') none)
    let more := p.textsize.1 > k
    let n0 := if more then o0.names.map (fun n => n.stack p.names (some 't') none) else o0.names
    let (g0, g1) ← splitText k 0 p.text (growText [] k p.textsize.2)
      (if more then growText [] (p.textsize.1 - k) p.textsize.2 else [])
    .ok ({ o0 with text := g0, textsize := (k, p.textsize.2), names := n0 },
      { o1 with text := g1, names := n1
                textsize := if more then (p.textsize.1 - k, p.textsize.2) else (0, 0) })
  else .ok (o0, o1)

/-- `in->matrix && splitpoint >= in->matrix->size1`, apop_data.m4.c:476. -/
def pastRows (p : Page α) (k : Int) : Bool := p.matrix.any (fun m => decide ((m.size1 : Int) ≤ k))

/-- `in->matrix && splitpoint >= in->matrix->size2`, apop_data.m4.c:518. -/
def pastCols (p : Page α) (k : Int) : Bool := p.matrix.any (fun m => decide ((m.cols : Int) ≤ k))

/-- `apop_data_split(in, splitpoint, 'r')` (or 'R', `text = false`), apop_data.m4.c:474-506 and the
allocation block. `in` is a chain (`copy` follows `more`, the split itself does not). -/
def splitRows (junk : α) (ps : List (Page α)) (k : Int) (text : Bool) :
    Res (List (Page α) × List (Page α)) :=
  match ps with
  | [] => .ok ([], [])
  | p :: _ =>
    if k ≤ 0 then do
      let c ← Page.copy junk ps
      .ok ([], c)
    else if pastRows p k then do
      let c ← Page.copy junk ps
      .ok (c, [])
    else do
      let k := k.toNat
      let v0 ← optM p.vector (fun v => subvec v 0 k)
      let v1 ← optM p.vector (fun v => subvec v k (v.length - k))
      let w0 ← optM p.weights (fun v => subvec v 0 k)
      let w1 ← optM p.weights (fun v => subvec v k (v.length - k))
      let m0 ← optM p.matrix (fun m => subRows m 0 k)
      let m1 ← optM p.matrix (fun m => subRows m k (m.size1 - k))
      match p.names with
      | none => .ub           -- in->names->rowct
      | some n =>
        let base := Names.alloc.stack (some n) (some 'v') none
        let n0 := (base.addAll (n.row.take k) 'r').stack (some n) (some 'c') none
        let n1 := (base.addAll (n.row.drop k) 'r').stack (some n) (some 'c') none
        let o0 : Page α := { vector := v0, weights := w0, matrix := m0, names := some n0 }
        let o1 : Page α := { vector := v1, weights := w1, matrix := m1, names := some n1 }
        let (o0, o1) ← (if text then splitTextRows p o0 o1 k else .ok (o0, o1) : Res (Page α × Page α))
        .ok ([o0], [o1])

/-- `apop_data_split(in, splitpoint, 'c' or 'C')`, apop_data.m4.c:507-568 and the allocation block. -/
def splitCols (junk : α) (ps : List (Page α)) (k : Int) : Res (List (Page α) × List (Page α)) :=
  match ps with
  | [] => .ok ([], [])
  | p :: _ =>
    if k ≤ -1 then do
      let c ← Page.copy junk ps
      .ok ([], c)
    else if pastCols p k then do
      let c ← Page.copy junk ps
      .ok (c, [])
    else
      let nv := Names.alloc.stack p.names (some 'v') none
      let b0 := (if p.vector.isSome then nv else Names.alloc).stack p.names (some 'r') none
      let b1 := Names.alloc.stack p.names (some 'r') none
      if k = 0 then
        let n1 := if p.matrix.isSome then b1.stack p.names (some 'c') none else b1
        .ok ([{ vector := p.vector, weights := p.weights, names := some b0 }],
             [{ matrix := p.matrix, weights := p.weights, names := some n1 }])
      else
        match p.matrix with
        | some m => do
          let k := k.toNat
          let m0 ← subCols m 0 k
          let m1 ← subCols m k (m.cols - k)
          match p.names with
          | none => .ub        -- in->names->colct
          | some n =>
            .ok ([{ vector := p.vector, weights := p.weights, matrix := some m0,
                    names := some (b0.addAll (n.col.take k) 'c') }],
                 [{ weights := p.weights, matrix := some m1,
                    names := some (b1.addAll (n.col.drop k) 'c') }])
        | none =>
          .ok ([{ vector := p.vector, weights := p.weights, names := some b0 }],
               [{ weights := p.weights, names := some b1 }])

end Apop.Stack
