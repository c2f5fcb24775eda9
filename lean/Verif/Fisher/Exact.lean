import Verif.Fisher.Network
import Mathlib.Algebra.Order.Round
import Mathlib.Algebra.Order.Floor.Ring

/-! # apop_test_fisher_exact

Model of apop_test_fisher_exact, apop_data_to_int_array, fexact, iwork and of f2xact
up to the network (apop_fexact.c:71-302, 308-530, 1700-1727, 1857-1922). -/

namespace Apop.Fisher
open Finset

/-- A double that is written to the result: never set, NaN, or a number. -/
inductive Val where
  | unset
  | nan
  | num (x : ℝ)

/-- What apop_test_fisher_exact returns: "probability of table", "p value", and
whether `error` is `'p'`. -/
structure FOut where
  prt : Val
  pre : Val
  error : Bool

/-- What the model leaves open: the two bounds and the orders of the hash tables. -/
structure Env where
  lp : List ℕ → List ℕ → Net ℝ
  sp : List ℕ → List ℕ → Net ℝ
  ord : List (ℝ × ℕ) → List (ℝ × ℕ)
  pop : List (ℕ × Tree) → List (ℕ × Tree)

/-- `const static double tol`, apop_fexact.c:327. -/
noncomputable def tolC : ℝ := 345254 / 1000000000000

/-- INT_MAX. -/
def intMax : ℕ := 2147483647

/-- `(int)` of a double that is in range: the fraction is dropped. -/
noncomputable def trunc (x : ℝ) : ℤ := if 0 ≤ x then ⌊x⌋ else ⌈x⌉

open Classical in
/-- apop_data_to_int_array (apop_fexact.c:1861-1869): `out[j*rowct + i]` is the cell
`(i, j)`; `%` and `/` recover `i` and `j` from the place. Conversion of a double
outside the range of int is undefined. -/
noncomputable def toIntArray (rowct colct : ℕ) (m : ℕ → ℕ → ℝ) : Res (ℕ → ℤ) :=
  if ∀ i < rowct, ∀ j < colct, -2147483649 < m i j ∧ m i j < 2147483648 then
    .ok (fun k => trunc (m (k % rowct) (k / rowct)))
  else .ub

/-- iwork (apop_fexact.c:1700-1727): the first int of the new block, and the new
`iwkpt`. -/
def iwork (iwkpt number : ℤ) (double : Bool) : ℤ × ℤ :=
  if double then ((if iwkpt % 2 = 0 then iwkpt else iwkpt + 1), iwkpt + 2 * number)
  else (iwkpt, iwkpt + number)

/-- A block of workspace: its first int and the number of ints in it. -/
structure Block where
  start : ℤ
  size : ℤ
deriving DecidableEq

/-- The blocks for requests (number of elements, is it double), one after the other. -/
def areas : ℤ → List (ℤ × Bool) → List Block
  | _, [] => []
  | p, (n, d) :: rs => ⟨(iwork p n d).1, if d then 2 * n else n⟩ :: areas (iwork p n d).2 rs

/-- What is requested before the hash tables, apop_fexact.c:219-232: fact, ico, iro,
kyy, idif, irn, iwk, rwk. -/
def fixedReq (nrow ncol : ℕ) (ntot : ℤ) : List (ℤ × Bool) :=
  let nco : ℤ := max nrow ncol
  let nro : ℤ := min nrow ncol
  let k : ℤ := nrow + ncol + 1
  [(ntot + 1, true), (nco, false), (nco, false), (nco, false), (nro, false), (nro, false),
    (max (5 * k + 2 * (k * nco)) (7 * nco + 800), false), (max (nco + 401) k, true)]

/-- `iwkpt` after requests. -/
def used (rs : List (ℤ × Bool)) : ℤ := (rs.map (fun r => if r.2 then 2 * r.1 else r.1)).sum

/-- `ldkey`, apop_fexact.c:255-260, with workspace = 200000 and mult = 30
(apop_fexact.c:1894-1895). -/
def ldkeyOf (nrow ncol : ℕ) (ntot : ℤ) : ℤ := Int.tdiv (200000 - used (fixedReq nrow ncol ntot)) 318 - 1

/-- What is requested for the hash tables, apop_fexact.c:262-269: key, ipoin, stp,
ifrq, LP, SP, tm, key2. -/
def hashReq (ldkey : ℤ) : List (ℤ × Bool) :=
  [(2 * ldkey, false), (2 * ldkey, false), (2 * (30 * ldkey), true), (6 * (30 * ldkey), false), (2 * ldkey, true),
    (2 * ldkey, true), (2 * ldkey, true), (2 * ldkey, false)]

/-- All the blocks of the workspace. -/
def layout (nrow ncol : ℕ) (ntot : ℤ) : List Block :=
  areas 0 (fixedReq nrow ncol ntot ++ hashReq (ldkeyOf nrow ncol ntot))

/-- The blocks are within the 200000 ints of the workspace, there is room for a hash
table, and no two blocks overlap. If not, the code may read and write outside
its memory, or interpret ints as doubles: the model says `ub`. -/
def RoomOK (nrow ncol : ℕ) (ntot : ℤ) : Prop :=
  1 ≤ ldkeyOf nrow ncol ntot ∧ (∀ b ∈ layout nrow ncol ntot, 0 ≤ b.start ∧ 0 ≤ b.size ∧ b.start + b.size ≤ 200000)
    ∧ (layout nrow ncol ntot).Pairwise (fun a b => a.start + a.size ≤ b.start ∨ b.start + b.size ≤ a.start)

/-- Row totals, apop_fexact.c:386-395. -/
def rowSums (nrow ncol : ℕ) (tab : ℕ → ℤ) : List ℕ :=
  (List.range nrow).map (fun i => ((List.range ncol).map (fun j => (tab (i + j * nrow)).toNat)).sum)

/-- Column totals, apop_fexact.c:405-409. -/
def colSums (nrow ncol : ℕ) (tab : ℕ → ℤ) : List ℕ :=
  (List.range ncol).map (fun j => ((List.range nrow).map (fun i => (tab (i + j * nrow)).toNat)).sum)

/-- The total as fexact computes it, apop_fexact.c:193-200. -/
def grand (nrow ncol : ℕ) (tab : ℕ → ℤ) : ℤ :=
  ((List.range nrow).map (fun i => ((List.range ncol).map (fun j => tab (i + j * nrow))).sum)).sum

/-- apop_fexact.c:411-430: sorted margins, exchanged if there are more rows than
columns: `(iro, ico)`. -/
def margins (nrow ncol : ℕ) (tab : ℕ → ℤ) : List ℕ × List ℕ :=
  if ncol < nrow then (sortUp (colSums nrow ncol tab), sortUp (rowSums nrow ncol tab))
  else (sortUp (rowSums nrow ncol tab), sortUp (colSums nrow ncol tab))

/-- apop_fexact.c:432-451: do the hash keys fit into an int? -/
def keysFit : ℕ → List ℕ → Prop
  | _, [] => True
  | acc, a :: l => a + 1 ≤ intMax / acc ∧ keysFit (acc * (a + 1)) l

/-- apop_fexact.c:467-481: `dd` for column `j` of `ico`. -/
noncomputable def ddOf (nrow ncol : ℕ) (tab : ℕ → ℤ) (j : ℕ) : ℝ :=
  if ncol < nrow then (List.range ncol).foldl (fun dd i => dd + factC (tab (j + i * nrow)).toNat) 0
  else (List.range nrow).foldl (fun dd i => dd + factC (tab (j * nrow + i)).toNat) 0

/-- apop_fexact.c:464-482: the observed path length, plus `tol`. -/
noncomputable def obsOf (nrow ncol : ℕ) (tab : ℕ → ℤ) : ℝ :=
  (List.range (max nrow ncol)).foldl
    (fun o j => o + (factC ((margins nrow ncol tab).2.getD j 0) - ddOf nrow ncol tab j)) tolC

/-- The parameters of the network. -/
noncomputable def parOf (E : Env) (nrow ncol : ℕ) (tab : ℕ → ℤ) : Par where
  tol := tolC
  obs := obsOf nrow ncol tab
  dro := f9xact (rowSums nrow ncol tab).sum (margins nrow ncol tab).1
  kyy := kyyFrom 1 (margins nrow ncol tab).1
  ldkey := (ldkeyOf nrow ncol (grand nrow ncol tab)).toNat
  ldstp := 30 * (ldkeyOf nrow ncol (grand nrow ncol tab)).toNat
  lp := E.lp
  sp := E.sp
  ord := E.ord
  pop := E.pop

/-- The network from its first node, apop_fexact.c:519-756. An error leaves whatever
was added so far in `pre`; the model calls that `unset`. -/
noncomputable def runNet (E : Env) (nrow ncol : ℕ) (tab : ℕ → ℤ) : Res FOut :=
  match network (parOf E nrow ncol tab) (margins nrow ncol tab).2 [((margins nrow ncol tab).1, [(0, 1)])] 0 with
  | .ok pre => .ok ⟨.num (Real.exp (obsOf nrow ncol tab - (parOf E nrow ncol tab).dro)), .num pre, false⟩
  | .err => .ok ⟨.num (Real.exp (obsOf nrow ncol tab - (parOf E nrow ncol tab).dro)), .unset, true⟩
  | .ub => .ub

open Classical in
/-- fexact and f2xact (apop_fexact.c:71-302, 308-530). The overflow of sums of ints
is not modelled apart from `RoomOK`. -/
noncomputable def fexact (E : Env) (nrow ncol : ℕ) (tab : ℕ → ℤ) : Res FOut :=
  if grand nrow ncol tab = 0 then .ok ⟨.nan, .nan, true⟩
  else if ¬ RoomOK nrow ncol (grand nrow ncol tab) then .ub
  else if ncol ≤ 1 then .ok ⟨.unset, .unset, true⟩
  else if ∃ i < nrow, ∃ j < ncol, tab (i + j * nrow) < 0 then .ok ⟨.unset, .unset, true⟩
  else if ¬ keysFit 1 (margins nrow ncol tab).1 then .ok ⟨.unset, .unset, true⟩
  else runNet E nrow ncol tab

/-- apop_test_fisher_exact (apop_fexact.c:1887-1922) for a data set with a matrix. -/
noncomputable def fisherExact (E : Env) (rowct colct : ℕ) (m : ℕ → ℕ → ℝ) : Res FOut :=
  match toIntArray rowct colct m with
  | .ub => .ub
  | .ok tab => fexact E rowct colct tab

end Apop.Fisher
