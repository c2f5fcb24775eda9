import Verif.Access.Model
import Verif.Text.Model

/-! # Conversions between formats (apop_conversions.m4.c)

Rank format, filling, crosstabs, vectors and matrices. -/

namespace Apop.Conv
variable {α : Type}

/-! ## Rank format -/

/-- `(*gsl_matrix_ptr(out->matrix, 0, x))++`, apop_conversions.m4.c:272, 274: `out` is the only row. A negative or
too large `x` is outside the matrix. -/
def incr (bins : List Nat) (x : Int) : Res (List Nat) :=
  if x < 0 then .ub
  else do
    let b ← rd bins x.toNat
    wr bins x.toNat (b + 1)

/-- The two counting loops, apop_conversions.m4.c:270-274. -/
def incrAll (bins : List Nat) : List Int → Res (List Nat)
  | [] => .ok bins
  | x :: xs => do
    let bins ← incr bins x
    incrAll bins xs

/-- `gsl_vector_max` / `gsl_matrix_max` (of the elements listed; GSL starts from the first). -/
def maxOf : List Int → Int
  | [] => 0
  | x :: xs => xs.foldl max x

/-- `upper_bound`, apop_conversions.m4.c:267-268. -/
def upperBound (vec : Option (List Int)) (mat : Option (Mat Int)) (minBins : Int) : Int :=
  max (match mat with
    | some m => maxOf m.rows.flatten
    | none => minBins)
   (match vec with
    | some v => maxOf v
    | none => minBins)

/-- `apop_data_rank_compress`, apop_conversions.m4.c:261-276, on integer data: the matrix loop, then the vector
loop. The result is the one row of counts. If `upper_bound + 1` is not positive there is no matrix. -/
def compress (vec : Option (List Int)) (mat : Option (Mat Int)) (minBins : Int) : Res (List Nat) := do
  let bins ← incrAll (List.replicate (upperBound vec mat minBins + 1).toNat 0) ((mat.map (·.rows.flatten)).getD [])
  incrAll bins (vec.getD [])

/-- `gsl_vector_set(out->vector, posn++, k)` `n` times, apop_conversions.m4.c:295-296. -/
def putTimes (k : Nat) : Nat → Nat → List (Option Nat) → Res (List (Option Nat) × Nat)
  | 0, posn, out => .ok (out, posn)
  | n + 1, posn, out => do
    let out ← wr out posn (some k)
    putTimes k n (posn + 1) out

/-- One row of counts, apop_conversions.m4.c:294-296. -/
def expandRow : List Nat → Nat → Nat → List (Option Nat) → Res (List (Option Nat) × Nat)
  | [], _, posn, out => .ok (out, posn)
  | n :: ns, k, posn, out => do
    let (out, posn) ← putTimes k n posn out
    expandRow ns (k + 1) posn out

/-- All rows, apop_conversions.m4.c:293-296. -/
def expandRows : List (List Nat) → Nat → List (Option Nat) → Res (List (Option Nat))
  | [], _, out => .ok out
  | r :: rs, posn, out => do
    let (out, posn) ← expandRow r 0 posn out
    expandRows rs posn out

/-- `apop_data_rank_expand`, apop_conversions.m4.c:286-298, on whole counts. An element never written is `none`.
The outer `none` is NULL. The vector is counted (line 288) but not expanded; `in->matrix` is not checked
(line 293). -/
def expand (vec : Option (List Nat)) (mat : Option (List (List Nat))) : Res (Option (List (Option Nat))) :=
  let total := ((mat.map (fun m => m.flatten.sum)).getD 0) + ((vec.map List.sum).getD 0)
  if total = 0 then .ok none
  else match mat with
    | none => .ub
    | some m => do
      let out ← expandRows m 0 (List.replicate total none)
      .ok (some out)

/-! ## Filling -/

/-- The inner loop of `apop_data_fill_base`, apop_conversions.m4.c:872-873: `n` more columns from `j`. -/
def fillRow (ap : List α) (i : Nat) : Nat → Int → Nat → Page α → Res (Page α × Nat)
  | 0, _, k, p => .ok (p, k)
  | n + 1, j, k, p => do
    let x ← rd ap k
    fillRow ap i n (j + 1) (k + 1) (Access.setBody p i j x).1

/-- The outer loop, apop_conversions.m4.c:871-873; `cols` columns from `start`. -/
def fillRows (ap : List α) (start : Int) (cols : Nat) : Nat → Nat → Nat → Page α → Res (Page α × Nat)
  | 0, _, k, p => .ok (p, k)
  | n + 1, i, k, p => do
    let (p, k) ← fillRow ap i cols start k p
    fillRows ap start cols n (i + 1) k p

/-- `apop_data_fill_base`, apop_conversions.m4.c:859-875; the number of values read is returned as well. -/
def fill (ap : List α) (p : Page α) : Res (Page α × Nat) :=
  let start : Int := if p.vector.isSome then -1 else 0
  let fin : Nat := (p.matrix.map (·.cols)).getD 0
  let height := match p.matrix with
    | some m => m.size1
    | none => (p.vector.map List.length).getD 0
  fillRows ap start (fin - start).toNat height 0 0 p

/-- `apop_vector_fill_base`, apop_conversions.m4.c:891-896: `n` more elements from `i`. -/
def vectorFillFrom (ap : List α) : Nat → Nat → List α → Res (List α)
  | 0, _, v => .ok v
  | n + 1, i, v => do
    let x ← rd ap i
    let v ← wr v i x
    vectorFillFrom ap n (i + 1) v

/-- `apop_vector_fill_base`, apop_conversions.m4.c:891-896. -/
def vectorFill (ap : List α) (v : List α) : Res (List α) := vectorFillFrom ap v.length 0 v

/-- What `vasprintf` makes of a format with no arguments, for `apop_text_set(data, i, j, text[ctr++])`
(apop_conversions.m4.c:936), where the user's string is the format: `%%` gives `%`, any other conversion is
undefined. -/
def format : CStr → Res CStr
  | [] => .ok []
  | c :: s =>
    if c = 37 then
      match s with
      | d :: s' => if d = 37 then do
          let r ← format s'
          .ok (37 :: r)
        else .ub
      | [] => .ub
    else do
      let r ← format s
      .ok (c :: r)

/-- A NULL string stays NULL (`apop_text_set` then writes the NaN string). -/
def formatOpt : Option CStr → Res (Option CStr)
  | none => .ok none
  | some s => do
    let r ← format s
    .ok (some r)

/-- The inner loop of `apop_text_fill_base`, apop_conversions.m4.c:935-936. -/
def textFillRow (nan : CStr) (text : List (Option CStr)) (i : Nat) : Nat → Nat → Nat → Text.Grid → Res (Text.Grid × Nat)
  | 0, _, ctr, g => .ok (g, ctr)
  | n + 1, j, ctr, g => do
    let s ← rd text ctr
    let s ← formatOpt s
    let (g, _) ← Text.set g nan i j s
    textFillRow nan text i n (j + 1) (ctr + 1) g

/-- The outer loop, apop_conversions.m4.c:934-936. -/
def textFillRows (nan : CStr) (text : List (Option CStr)) : Nat → Nat → Nat → Text.Grid → Res (Text.Grid × Nat)
  | 0, _, ctr, g => .ok (g, ctr)
  | n + 1, i, ctr, g => do
    let (g, ctr) ← textFillRow nan text i g.size.2 0 ctr g
    textFillRows nan text n (i + 1) ctr g

/-- `apop_text_fill_base`, apop_conversions.m4.c:923-938, for a non-NULL data set; `text` is the whole array, its
terminating NULL included (line 925 reads up to the first NULL). -/
def textFill (nan : CStr) (text : List (Option CStr)) (g : Text.Grid) : Res Text.Grid :=
  if none ∈ text then do
    let (g, _) ← textFillRows nan text g.size.1 0 0 g
    .ok g
  else .ub

/-! ## Crosstabs -/

/-- The loop of `find_cat_index`, apop_conversions.m4.c:79-83. Fuel: `none` when it runs out. -/
def catLoop (d : List CStr) (r : CStr) (start size : Nat) : Nat → Nat → Option (Res Int)
  | 0, _ => none
  | f + 1, i => match rd d i with
    | .ub => some .ub
    | .ok s =>
      if s = r then some (.ok i)
      else if (i + 1) % size = start then some (.ok (-2))
      else catLoop d r start size f ((i + 1) % size)

/-- `find_cat_index`, apop_conversions.m4.c:76-85. -/
def findCat (fuel : Nat) (d : List CStr) (r : CStr) (start size : Nat) : Option (Res Int) :=
  if size = 0 then some .ub else catLoop d r start size fuel (start % size)

/-- `gsl_matrix_set` with its range check. -/
def cellSet (m : List (List α)) (i j : Nat) (x : α) : Res (List (List α)) := do
  let r ← rd m i
  let r ← wr r j x
  wr m i r

/-- The loop over the records, apop_conversions.m4.c:153-158. `none`: not enough fuel. The `Bool` is false if a name was
not found (error 'n'). -/
def crossLoop (atof : CStr → α) (fuel : Nat) (R C : List CStr) : List (CStr × CStr × CStr) → Nat → Nat → List (List α) →
    Option (Res (List (List α) × Bool))
  | [], _, _, m => some (.ok (m, true))
  | (r, c, v) :: recs, i, j, m =>
    match findCat fuel R r i R.length, findCat fuel C c j C.length with
    | some (.ok i'), some (.ok j') =>
      if i' = -2 ∨ j' = -2 then some (.ok (m, false))
      else match cellSet m i'.toNat j'.toNat (atof v) with
        | .ub => some .ub
        | .ok m => crossLoop atof fuel R C recs i'.toNat j'.toNat m
    | none, _ => none
    | some .ub, _ => some .ub
    | some (.ok _), none => none
    | some (.ok _), some .ub => some .ub

/-- `apop_db_to_crosstab` after its three queries, apop_conversions.m4.c:139-158: `R` and `C` are the
distinct row and column keys the queries gave, `recs` the records (row key, column key, value). At the start
`j` is 0 and `i` is left at the number of columns by the loop on line 149. -/
def crosstab (zero : α) (atof : CStr → α) (fuel : Nat) (R C : List CStr) (recs : List (CStr × CStr × CStr)) :
    Option (Res (List (List α) × Bool)) :=
  crossLoop atof fuel R C recs C.length 0 (List.replicate R.length (List.replicate C.length zero))

/-- The number of characters `%i` prints for a number that is not negative. -/
def digits (n : Nat) : Nat := if n < 10 then 1 else digits (n / 10) + 1

/-- Bytes `sprintf(buf, "r%i", i)` writes, apop_conversions.m4.c:206: letter, digits, terminating NUL. -/
def nameBytes (i : Nat) : Nat := 1 + digits i + 1

/-- Size of the buffer `sparerow` (or `sparecol`), apop_conversions.m4.c:198-199, given `log` = `(int)log10(m)`. -/
def bufBytes (m log : Nat) : Nat := if 0 < m then log + 1 else 0

/-- Which of the `m` row names are made up when `ct` names are there, apop_conversions.m4.c:205-208, and whether all
writes stay in the buffer. -/
def namesFit (m ct log : Nat) : Bool := (List.range m).all (fun i => decide (i < ct) || decide (nameBytes i ≤ bufBytes m log))

/-! ## Vectors -/

/-- `apop_vector_to_matrix`, apop_conversions.m4.c:62-74: as a matrix that is first allocated (`junk`), then has its
first row or column set. -/
def toMatrix (junk : α) (rowCol : Char) (v : List α) : Mat α :=
  if rowCol = 'r' ∨ rowCol = 'R' then ⟨(Mat.fresh junk 1 v.length).rows.set 0 v, v.length⟩
  else ⟨List.zipWith (fun r x => r.set 0 x) (Mat.fresh junk v.length 1).rows v, 1⟩

/-- `apop_array_to_vector`, apop_conversions.m4.c:38-47: `in` is the memory behind the pointer. A size of zero means the
default, `sizeof(in)/sizeof(in[0])` of a *pointer*, which is 1. -/
def arrayToVector (inp : List α) (size : Nat) : Res (List α) :=
  let n := if size = 0 then 1 else size
  if n ≤ inp.length then .ok (inp.take n) else .ub

end Apop.Conv
