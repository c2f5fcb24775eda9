import Verif.Rows.Model

/-! # `apop_data_sort` (apop_sort.m4.c)

Numbers are an abstract type `α` with the comparison `le` (`<=` on non-NaN doubles). The two library sorts
(`gsl_sort_vector_index`, `qsort`) are parameters: the theorems assume nothing of them but that they
return a sorting permutation (neither is stable). -/

namespace Apop.Sort
open Apop.Views
variable {α : Type}

/-- A sort key: the codes of apop_sort.m4.c:47-48 (-1, -2, a column number, column + 0.5, 0.2). -/
inductive Col where
  | vec
  | wts
  | mat (j : Nat)
  | text (j : Nat)
  | name
  deriving DecidableEq, Repr

/-! ## the order of the columns -/

/-- One candidate of the `sort_order` set: the column and its rank (`none`: NaN, or the NaN string for
text and names). -/
structure Cand (ρ : Type) where
  col : Col
  rank : Option ρ

/-- `> *x`, apop_sort.m4.c:11, 18, 25, 30, 36: the rank is larger than the last one used. -/
def above {ρ : Type} (lt : ρ → ρ → Bool) (x : Option ρ) (v : ρ) : Bool :=
  match x with
  | none => true
  | some x => lt x v

/-- `v < candidate_val`, same lines. -/
def beats {ρ : Type} (lt : ρ → ρ → Bool) (v : ρ) (best : Option (ρ × Col)) : Bool :=
  match best with
  | none => true
  | some b => lt v b.1

/-- One test of `find_smallest_larger_than`, apop_sort.m4.c:10-41. -/
def better {ρ : Type} (lt : ρ → ρ → Bool) (x : Option ρ) (c : Cand ρ) (best : Option (ρ × Col)) : Option (ρ × Col) :=
  match c.rank with
  | none => best
  | some v => if above lt x v && beats lt v best then some (v, c.col) else best

/-- `find_smallest_larger_than`, apop_sort.m4.c:7-43: `x` is the last rank used (`none` = -infinity);
`best` is the candidate so far (rank and column; `none` = infinity, -100). -/
def smallestLarger {ρ : Type} (lt : ρ → ρ → Bool) (x : Option ρ) :
    List (Cand ρ) → Option (ρ × Col) → Option (ρ × Col)
  | [], best => best
  | c :: cs, best => smallestLarger lt x cs (better lt x c best)

/-- The loop of `generate_sort_order` for a given `sort_order`, apop_sort.m4.c:50-53 and 62; `k` is
`cols_to_sort_ct - 1`. A result of -100 ends the list for all readers of it. -/
def orderFrom {ρ : Type} (lt : ρ → ρ → Bool) (cands : List (Cand ρ)) : Nat → Option ρ → List Col
  | 0, _ => []
  | k + 1, x =>
    match smallestLarger lt x cands none with
    | none => []
    | some (v, c) => c :: orderFrom lt cands k (some v)

/-- `generate_sort_order` without a `sort_order`, apop_sort.m4.c:54-61; `names` is dereferenced. -/
def defaultOrder (p : Page α) : Res (List Col) :=
  match p.names with
  | none => .ub
  | some n => .ok (
      (if p.vector.isSome then [.vec] else []) ++
      (match p.matrix with | some m => (List.range m.cols).map .mat | none => []) ++
      (if p.textsize.1 ≠ 0 then (List.range p.textsize.2).map .text else []) ++
      (if p.weights.isSome then [.wts] else []) ++
      (if n.row ≠ [] then [.name] else []))

/-! ## rearrangement -/

/-- `apop_data_copy(Apop_r(data, i))`, apop_sort.m4.c:91. -/
def saveRow (junk : α) (p : Page α) (i : Nat) : Res (Page α) := do
  let c ← Page.copy junk [rowView p i 1]
  rd c 0

/-- `apop_data_memcpy(Apop_r(data, i), src)`, apop_sort.m4.c:95, 99. -/
def writeRow (p : Page α) (i : Nat) (src : Page α) : Res (Page α) := do
  let (v, _) ← Page.memcpyPage (rowView p i 1) src
  .ok (putRows p i v)

/-- The inner loop, apop_sort.m4.c:93-98: follow the cycle from `i` back to `start`; returns the data,
the marks and the last position. Fuel: when it runs out (an endless loop) the result is `ub`. -/
def cycle (perm : List Nat) (start : Nat) : Nat → Nat → List Bool → Page α → Res (Page α × List Bool × Nat)
  | 0, _, _, _ => .ub
  | k + 1, i, marks, p => do
    let t ← rd perm i
    if t = start then .ok (p, marks, i)
    else do
      let p ← writeRow p i (rowView p t 1)
      let marks ← wr marks t true
      cycle perm start k t marks p

/-- `find_min_unsorted`, apop_sort.m4.c:67-72. -/
def minUnsorted (marks : List Bool) (from_ : Nat) : Option Nat :=
  ((List.range marks.length).filter (fun i => decide (from_ ≤ i) && marks[i]? == some false)).head?

/-- The outer loop, apop_sort.m4.c:87-101. Fuel as above. -/
def outer (junk : α) (perm : List Nat) : Nat → Nat → List Bool → Page α → Res (Page α)
  | 0, start, marks, p => if minUnsorted marks start = none then .ok p else .ub
  | k + 1, start, marks, p =>
    match minUnsorted marks start with
    | none => .ok p
    | some start => do
      let saved ← saveRow junk p start
      let marks ← wr marks start true
      let (p, marks, i) ← cycle perm start perm.length start marks p
      let p ← writeRow p i saved
      outer junk perm k start marks p

/-- `rearrange`, apop_sort.m4.c:83-103. -/
def rearrange (junk : α) (p : Page α) (perm : List Nat) : Res (Page α) :=
  outer junk perm perm.length 0 (List.replicate perm.length false) p

/-! ## the sort -/

/-- The two library sorts, returning the sorting permutation. -/
structure Sorters (α : Type) where
  nums : List α → List Nat
  strs : List CStr → List Nat

/-- The values of a numeric column as `thiscol`, apop_sort.m4.c:165-173; a NULL part is
dereferenced. -/
def numCol (p : Page α) : Col → Res (List α)
  | .vec => match p.vector with | some v => .ok v | none => .ub
  | .wts => match p.weights with | some v => .ok v | none => .ub
  | .mat j => match p.matrix with | some m => Stack.getColRows j m.rows | none => .ub
  | _ => .ub

/-- The `j`-th string of each row. -/
def strCol (j : Nat) : List (List CStr) → Res (List CStr)
  | [] => .ok []
  | r :: rs => do
    let s ← rd r j
    let ss ← strCol j rs
    .ok (s :: ss)

/-- The strings of a text column or the row names. -/
def txtCol (p : Page α) : Col → Res (List CStr)
  | .text j => strCol j p.text
  | .name => match p.names with | some n => .ok n.row | none => .ub
  | _ => .ub

/-- Is the key text? apop_sort.m4.c:161. -/
def Col.isText : Col → Bool
  | .text _ => true
  | .name => true
  | _ => false

/-- The second pass, apop_sort.m4.c:203-230, on a key of type `κ` read by `key`: `ne1` decides the end
of a block, `ne2` where the next one begins (`!=` twice for numbers; `strcasecmp`, `strcmp` for text).
`k` iterations to go, `i` the current one, `h` the height. -/
def blocks {κ : Type} (key : Page α → Res (List κ)) (ne1 ne2 : κ → κ → Bool) (sub : Page α → Res (Page α))
    (h : Nat) : Nat → Nat → Nat → κ → Page α → Res (Page α)
  | 0, _, _, _, p => .ok p
  | k + 1, i, bottom, last, p =>
    if i = h then
      if bottom ≠ i - 1 then do
        let v ← sub (rowView p bottom (i - bottom))
        .ok (putRows p bottom v)
      else .ok p
    else do
      let ks ← key p
      let this ← rd ks i
      let p ← (if ne1 this last ∧ bottom ≠ i - 1 then do
          let v ← sub (rowView p bottom (i - bottom))
          .ok (putRows p bottom v)
        else .ok p : Res (Page α))
      blocks key ne1 ne2 sub h k (i + 1) (if ne2 last this then i else bottom) this p

/-- `!=` on numbers, in terms of the order (no NaNs). -/
def neNum (le : α → α → Bool) (a b : α) : Bool := !(le a b && le b a)

/-- `apop_data_sort_base` once the sort order is known, apop_sort.m4.c:160-232. `desc` is
`asc=='d'||asc=='D'`; the recursive calls pass 'a' (lines 212, 224). -/
def sortBy (junk : α) (le : α → α → Bool) (S : Sorters α) : Bool → List Col → Page α → Res (Page α)
  | _, [], _ => .ub     -- col_order[0] == -100: thiscol is NULL
  | desc, [c], p =>
    if c.isText then do
      let ks ← txtCol p c
      rearrange junk p (if desc then (S.strs ks).reverse else S.strs ks)
    else do
      let ks ← numCol p c
      rearrange junk p (if desc then (S.nums ks).reverse else S.nums ks)
  | desc, c :: c' :: cs, p =>
    if c.isText then do
      let ks ← txtCol p c
      let p ← rearrange junk p (if desc then (S.strs ks).reverse else S.strs ks)
      let ks' ← txtCol p c
      let last ← rd ks' 0
      blocks (fun p => txtCol p c) (fun a b => !caseEq a b) (fun a b => a != b)
        (sortBy junk le S false (c' :: cs)) ks.length ks.length 1 0 last p
    else do
      let ks ← numCol p c
      let p ← rearrange junk p (if desc then (S.nums ks).reverse else S.nums ks)
      let ks' ← numCol p c
      let last ← rd ks' 0
      blocks (fun p => numCol p c) (neNum le) (neNum le)
        (sortBy junk le S false (c' :: cs)) ks.length ks.length 1 0 last p

/-- `apop_data_sort(data, .asc, .inplace)` with the default order, apop_sort.m4.c:141-232: result and the
input afterwards (only the first page is sorted; the rest of the chain goes along). -/
def sort (junk : α) (le : α → α → Bool) (S : Sorters α) (ps : List (Page α)) (desc inplace : Bool) :
    Res (List (Page α) × List (Page α)) :=
  match ps with
  | [] => .ok ([], [])
  | p :: rest =>
    if inplace then do
      let order ← defaultOrder p
      let q ← sortBy junk le S desc order p
      .ok (q :: rest, q :: rest)
    else do
      let c ← Page.copy junk ps
      match c with
      | [] => .ub
      | c :: cs => do
        let order ← defaultOrder c
        let q ← sortBy junk le S desc order c
        .ok (q :: cs, ps)

end Apop.Sort
