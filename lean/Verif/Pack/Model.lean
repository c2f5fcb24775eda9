import Verif.Data.Model

/-! # `apop_data_pack` and `apop_data_unpack` (apop_conversions.m4.c:691-802)

A data set is the list of its pages (first page first). A GSL call that invokes the GSL error handler
(which aborts, by default) has the outcome `ub`. -/

namespace Apop.Pack
variable {α : Type}

/-- `apop_regex(title, "^<.*>$")`, used at apop_conversions.m4.c:717, 730 and 794: the title is at least two bytes,
the first `<` and the last `>`. A NULL title does not match. -/
def infoTitle : Option CStr → Bool
  | none => false
  | some t => decide (2 ≤ t.length) && (t.head? == some 60) && (t.getLast? == some 62)

/-- `gsl_vector_subvector(v, offset, n)` of a vector of the given size: GSL's range check
(gsl/vector/subvector_source.c). -/
def viewOk (size offset n : Nat) : Bool := decide (offset + (n - 1) < size)

/-- Read a subvector. -/
def sub (v : List α) (offset n : Nat) : Res (List α) :=
  if viewOk v.length offset n then .ok ((v.drop offset).take n) else .ub

/-- Write `x` through a subvector at `offset` with `x`'s size. -/
def put (v : List α) (offset : Nat) (x : List α) : Res (List α) :=
  if viewOk v.length offset x.length then .ok (v.take offset ++ x ++ v.drop (offset + x.length)) else .ub

/-- The number of elements of a page, apop_conversions.m4.c:732-734. -/
def pageSize (p : Page α) : Nat :=
  (p.vector.map List.length).getD 0 + (p.matrix.map (fun m => m.size1 * m.cols)).getD 0 + (p.weights.map List.length).getD 0

/-- `sizecount`, apop_conversions.m4.c:728-736 (a page without a name structure is not an info page). -/
def sizecount (all info : Bool) : List (Page α) → Nat
  | [] => 0
  | p :: ps =>
    if !info && (p.names.map (fun n => infoTitle n.title)).getD false then (if all then sizecount all info ps else 0)
    else pageSize p + (if all then sizecount all info ps else 0)

/-- The loop over the matrix rows, apop_conversions.m4.c:779-784. -/
def putRows : List (List α) → Nat → List α → Res (List α × Nat)
  | [], off, out => .ok (out, off)
  | r :: rs, off, out => do
    let out ← put out off r
    putRows rs (off + r.length) out

/-- The vector part, apop_conversions.m4.c:774-778: content of `out` and new offset. -/
def putVec (o : Option (List α)) (out : List α) : Res (List α × Nat) :=
  match o with
  | none => .ok (out, 0)
  | some v => do
    let out ← put out 0 v
    .ok (out, v.length)

/-- The matrix part, apop_conversions.m4.c:779-785. -/
def putMat (o : Option (Mat α)) (off : Nat) (out : List α) : Res (List α × Nat) :=
  match o with
  | none => .ok (out, off)
  | some m => putRows m.rows off out

/-- The weights, apop_conversions.m4.c:786-790. -/
def putWts (o : Option (List α)) (off : Nat) (out : List α) : Res (List α × Nat) :=
  match o with
  | none => .ok (out, off)
  | some w => do
    let out ← put out off w
    .ok (out, off + w.length)

/-- One page, apop_conversions.m4.c:772-790. -/
def putPage (p : Page α) (out : List α) : Res (List α × Nat) := do
  let (out, off) ← putVec p.vector out
  let (out, off) ← putMat p.matrix off out
  putWts p.weights off out

/-- The title of a page; `names` is dereferenced without a check (apop_conversions.m4.c:717, 794). -/
def titleOf (p : Page α) : Res (Option CStr) :=
  match p.names with
  | none => .ub
  | some n => .ok n.title

/-- The loop that skips info pages, apop_conversions.m4.c:715-717 and 793-795: what remains of `more`. -/
def skipInfo (useInfo : Char) : List (Page α) → Res (List (Page α))
  | [] => .ok []
  | p :: ps =>
    if useInfo = 'n' then do
      let t ← titleOf p
      if infoTitle t then skipInfo useInfo ps else .ok (p :: ps)
    else .ok (p :: ps)

/-- The loop never gives more pages than it got. -/
theorem skipInfo_le (u : Char) : ∀ (ps qs : List (Page α)), skipInfo u ps = .ok qs → qs.length ≤ ps.length
  | [], qs, h => by simp [skipInfo] at h; simp [← h]
  | p :: ps, qs, h => by
    simp only [skipInfo] at h
    split at h
    · obtain ⟨t, -, h⟩ := Res.bind_eq_ok.1 h
      split at h
      · exact Nat.le_succ_of_le (skipInfo_le u ps qs h)
      · simp at h; simp [← h]
    · simp at h; simp [← h]

/-- The characters taken for yes in `sizecount`'s arguments, apop_conversions.m4.c:764, 769. -/
def yes (c : Char) : Bool := c == 'y' || c == 'Y'

/-- `apop_data_pack` writing into a vector `out` the caller gave, apop_conversions.m4.c:757-800. The result is the
vector's content after the call and whether the pointer was returned (rather than NULL). -/
def packInto (more useInfo : Char) (ps : List (Page α)) (out : List α) : Res (List α × Bool) :=
  match ps with
  | [] => .ok (out, false)
  | p :: ps =>
    if out.length ≠ sizecount (yes more) (yes useInfo) (p :: ps) then .ok (out, false)
    else if sizecount (yes more) (yes useInfo) (p :: ps) = 0 then .ok (out, false)
    else do
      let (out, off) ← putPage p out
      if yes more then
        match hs : skipInfo useInfo ps with
        | .ub => .ub
        | .ok [] => .ok (out, true)
        | .ok (q :: qs) =>
          if viewOk out.length off (out.length - off) then do
            let (tail, _) ← packInto more useInfo (q :: qs) (out.drop off)
            .ok (out.take off ++ tail, true)
          else .ub
      else .ok (out, true)
  termination_by ps.length
  decreasing_by
    have := skipInfo_le _ _ _ hs
    simp at this ⊢; omega

/-- `apop_data_pack` with `.out=NULL`: a fresh vector of the counted size, holding `junk`; NULL if the size is
zero. -/
def pack (junk : α) (more useInfo : Char) (ps : List (Page α)) : Res (Option (List α)) :=
  match ps with
  | [] => .ok none
  | p :: ps =>
    if sizecount (yes more) (yes useInfo) (p :: ps) = 0 then .ok none
    else do
      let (out, _) ← packInto more useInfo (p :: ps) (List.replicate (sizecount (yes more) (yes useInfo) (p :: ps)) junk)
      .ok (some out)

/-- The loop over the matrix rows, apop_conversions.m4.c:704-709. -/
def takeRows (v : List α) : List (List α) → Nat → Res (List (List α) × Nat)
  | [], off => .ok ([], off)
  | r :: rs, off => do
    let x ← sub v off r.length
    let (xs, off) ← takeRows v rs (off + r.length)
    .ok (x :: xs, off)

/-- The vector part, apop_conversions.m4.c:698-702: the page's new vector and the offset. -/
def takeVec (v : List α) (o : Option (List α)) : Res (Option (List α) × Nat) :=
  match o with
  | none => .ok (none, 0)
  | some x => do
    let y ← sub v 0 x.length
    .ok (some y, x.length)

/-- The matrix part, apop_conversions.m4.c:703-709. -/
def takeMat (v : List α) (o : Option (Mat α)) (off : Nat) : Res (Option (Mat α) × Nat) :=
  match o with
  | none => .ok (none, off)
  | some m => do
    let (rs, off) ← takeRows v m.rows off
    .ok (some ⟨rs, m.cols⟩, off)

/-- The weights, apop_conversions.m4.c:710-714. -/
def takeWts (v : List α) (o : Option (List α)) (off : Nat) : Res (Option (List α) × Nat) :=
  match o with
  | none => .ok (none, off)
  | some x => do
    let y ← sub v off x.length
    .ok (some y, off + x.length)

/-- One page of `apop_data_unpack`, apop_conversions.m4.c:698-714. -/
def takePage (v : List α) (p : Page α) : Res (Page α × Nat) := do
  let (vec, off) ← takeVec v p.vector
  let (mat, off) ← takeMat v p.matrix off
  let (wts, off) ← takeWts v p.weights off
  .ok ({ p with vector := vec, matrix := mat, weights := wts }, off)

/-- `apop_data_unpack`, apop_conversions.m4.c:691-723. The recursive call on line 722 does not pass
`use_info_pages` on, so it is 'n' from the second page on. -/
def unpack (useInfo : Char) (v : List α) (ps : List (Page α)) : Res (List (Page α)) :=
  match ps with
  | [] => .ok []
  | p :: ps => do
    let (p, off) ← takePage v p
    if off ≠ v.length ∧ ps ≠ [] then
      if viewOk v.length off (v.length - off) then
        match hs : skipInfo useInfo ps with
        | .ub => .ub
        | .ok [] => .ok (p :: ps)
        | .ok (q :: qs) => do
          let rest ← unpack 'n' (v.drop off) (q :: qs)
          .ok (p :: ps.take (ps.length - (q :: qs).length) ++ rest)
      else .ub
    else .ok (p :: ps)
  termination_by ps.length
  decreasing_by
    have := skipInfo_le _ _ _ hs
    simp at this ⊢; omega

end Apop.Pack
