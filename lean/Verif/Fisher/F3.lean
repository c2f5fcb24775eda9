import Verif.Fisher.Exact
import Mathlib.Algebra.Order.Floor.Ring
import Mathlib.Data.Rat.Floor

/-! # f3xact: the longest path

Model of f3xact and f10act (apop_fexact.c:760-1067, 1627-1682).

Row and column totals are ints (`ℤ`). Sums of doubles are over the reals, and the
two quotients that bound a cell are over the rationals. The two halves of the
table of 200 pending nodes are association lists: during a level nodes are only
added to one half and only taken from the other, and linear probing over the
whole half finds a key exactly when it is there. `nst` and `nitc`, which are
static, are zero when f3xact is called; it leaves them so unless it fails. -/

namespace Apop.Fisher.F3
open Apop Apop.Fisher

/-- A read of the array `fact`: `.ub` if outside. -/
abbrev Fact := ℤ → Res ℝ

/-- `fact` as an array of `n + 1` entries (apop_fexact.c:453-462). -/
noncomputable def factArr (n : ℕ) : Fact := fun i => if 0 ≤ i ∧ i ≤ n then .ok (factC i.toNat) else .ub

/-- Sums of entries of `fact`. -/
noncomputable def sumFact (fact : Fact) : List ℤ → Res ℝ
  | [] => .ok 0
  | x :: l =>
    match fact x, sumFact fact l with
    | .ok a, .ok b => .ok (a + b)
    | _, _ => .ub

/-- `(int)` of a double: the fraction is dropped. -/
def truncQ (q : ℚ) : ℤ := if 0 ≤ q then ⌊q⌋ else ⌈q⌉

/-- `tol`, apop_fexact.c:327. -/
def tolQ : ℚ := 345254 / 1000000000000

/-- The first value of a cell, apop_fexact.c:905-906 (plus one), 933-934. -/
def loOf (nr1 nc1 nrt nct nn1 : ℤ) : ℤ :=
  truncQ ((((nrt + 1) * (nct + 1) : ℤ) : ℚ) / ((nn1 + nr1 * nc1 + 1 : ℤ) : ℚ) - tolQ)

/-- The quotient that bounds a cell from above, apop_fexact.c:907-908, 935-936. -/
def hiOf (nr1 nc1 nrt nct nn1 : ℤ) : ℚ :=
  (((nrt + nc1) * (nct + nr1) : ℤ) : ℚ) / ((nn1 + nr1 + nc1 : ℤ) : ℚ)

/-- How many values a cell of the first column gets: `nu[1]`, apop_fexact.c:907-908,
912-919. It is decremented before it is compared to zero; if it is then negative,
the loop goes on until it wraps around. -/
def countFirst (nr1 nc1 nrt nct nn1 : ℤ) : Res ℕ :=
  if nn1 + nr1 * nc1 + 1 = 0 ∨ nn1 + nr1 + nc1 = 0 then .ub
  else if truncQ (hiOf nr1 nc1 nrt nct nn1) - loOf nr1 nc1 nrt nct nn1 + 1 < 0 then .ub
  else .ok (truncQ (hiOf nr1 nc1 nrt nct nn1) - loOf nr1 nc1 nrt nct nn1 + 1).toNat

/-- How many values a cell of a later column gets: `nu[lev]`, apop_fexact.c:933-936.
The first value is used before `nu` is decremented and compared to zero. -/
def countLater (nr1 nc1 nrt nct nn1 : ℤ) : Res ℕ :=
  if nn1 + nr1 * nc1 + 1 = 0 ∨ nn1 + nr1 + nc1 = 0 then .ub
  else if truncQ (hiOf nr1 nc1 nrt nct nn1 - loOf nr1 nc1 nrt nct nn1 + 1) < 1 then .ub
  else .ok (truncQ (hiOf nr1 nc1 nrt nct nn1 - loOf nr1 nc1 nrt nct nn1 + 1)).toNat

/-- Which of the two. -/
def count (first : Bool) (nr1 nc1 nrt nct nn1 : ℤ) : Res ℕ :=
  if first then countFirst nr1 nc1 nrt nct nn1 else countLater nr1 nc1 nrt nct nn1

/-- One list after the other. -/
def gather {α : Type _} : List (Res (List α)) → Res (List α)
  | [] => .ok []
  | r :: rs =>
    match r, gather rs with
    | .ok a, .ok b => .ok (a ++ b)
    | _, _ => .ub

/-- A cell in front of each row. -/
def front (x : ℤ) : Res (List (List ℤ)) → Res (List (List ℤ))
  | .ok ls => .ok (ls.map (x :: ·))
  | .ub => .ub

/-- LoopNode (apop_fexact.c:911-940): the values of `lb[1..nco]` for which a node is
generated, in order. `nr1`: rows that remain after this one; `nrt`: what remains of
this row; `nn1`: the total of the columns `cs`, `nt`. The last cell is what is left
of the row. All rows are generated before the first is used; in the code each is
used when it is generated. -/
def candidates (nr1 : ℤ) : Bool → ℤ → ℤ → List ℤ → Res (List (List ℤ))
  | _, _, _, [] => .ok []
  | _, nrt, _, [_] => .ok [[nrt]]
  | first, nrt, nn1, c :: c' :: cs =>
    match count first nr1 (c' :: cs).length nrt c nn1 with
    | .ub => .ub
    | .ok n =>
      gather ((List.range n).map (fun (i : ℕ) =>
        front (loOf nr1 (c' :: cs).length nrt c nn1 + i)
          (candidates nr1 false (nrt - (loOf nr1 (c' :: cs).length nrt c nn1 + i)) (nn1 - c) (c' :: cs))))

/-- The shortest path found so far, and the pending nodes of the next level: key and
length (`ist`, `stv`), in the order of `itc`. -/
structure S3 where
  vmn : ℝ
  tab : List (ℤ × ℝ)

open Classical in
/-- `if (v < vmn) vmn = v`. -/
noncomputable def S3.upd (st : S3) (v : ℝ) : S3 := if v < st.vmn then { st with vmn := v } else st

/-- isort by its meaning (`C196_f3xact_sort` shows that the code computes this); the swap for two
columns is the same. -/
def sortZ (l : List ℤ) : List ℤ := l.insertionSort (· ≤ ·)

/-- The key of a node, apop_fexact.c:974-978. -/
def keyOf (kyy : ℤ) (it : List ℤ) : ℤ := it.foldl (fun key x => x + key * kyy) 0

/-- The marginals of a key, apop_fexact.c:1028-1033. -/
def decKey (kyy : ℤ) : ℕ → ℤ → List ℤ → List ℤ
  | 0, _, acc => acc
  | 1, key, acc => key :: acc
  | n + 2, key, acc => decKey kyy (n + 1) (key / kyy) (key % kyy :: acc)

/-- apop_fexact.c:1006-1011, and L190, 1014-1015, if the key is in the table. -/
noncomputable def pushTab (key : ℤ) (v : ℝ) : List (ℤ × ℝ) → List (ℤ × ℝ)
  | [] => [(key, v)]
  | (k, w) :: tab => if k = key then (k, min v w) :: tab else (k, w) :: pushTab key v tab

/-- apop_fexact.c:961-1016: put the node on the stack. The `int` that holds the key
may overflow. -/
noncomputable def push (kyy : ℤ) (it : List ℤ) (v : ℝ) (st : S3) : Net S3 :=
  if (intMax : ℤ) < keyOf kyy it then .ub
  else if keyOf kyy it ∉ st.tab.map Prod.fst ∧ 200 ≤ st.tab.length then .err
  else .ok { st with tab := pushTab (keyOf kyy it) v st.tab }

/-- apop_fexact.c:951-957: two rows of two columns remain; `n11` is the most probable
cell. -/
noncomputable def two (fact : Fact) (nn1 r1 ic1 ic2 : ℤ) : Res ℝ :=
  if (intMax : ℤ) < (r1 + 1) * (ic1 + 1) then .ub
  else
    sumFact fact [Int.tdiv ((r1 + 1) * (ic1 + 1)) nn1, r1 - Int.tdiv ((r1 + 1) * (ic1 + 1)) nn1,
      ic1 - Int.tdiv ((r1 + 1) * (ic1 + 1)) nn1, ic2 - (r1 - Int.tdiv ((r1 + 1) * (ic1 + 1)) nn1)]

/-- Finish a path. -/
noncomputable def finish (v : ℝ) (st : S3) : Res ℝ → Net S3
  | .ok w => .ok (st.upd (v + w))
  | .ub => .ub

/-- apop_fexact.c:944-1016: what is done with a row, once `v` is known. `iro` are the
totals of this and the remaining rows. -/
noncomputable def place (fact : Fact) (kyy nn : ℤ) (iro ico lb : List ℤ) (v : ℝ) (st : S3) : Net S3 :=
  match iro, ico, lb with
  | [_, _], _, _ => finish v st (sumFact fact (List.zipWith (· - ·) ico lb))
  | [r0, r1, _], [c1, c2], [b1, b2] => finish v st (two fact (nn - r0 + 2) r1 (c1 - b1) (c2 - b2))
  | _, _, _ => push kyy (sortZ ((List.zipWith (· - ·) ico lb).map (max · 0))) v st

/-- apop_fexact.c:939-1016. -/
noncomputable def consider (fact : Fact) (kyy nn : ℤ) (iro ico : List ℤ) (val : ℝ) (lb : List ℤ) (st : S3) : Net S3 :=
  match sumFact fact lb with
  | .ub => .ub
  | .ok s => place fact kyy nn iro ico lb (val + s) st

/-- All the rows. -/
noncomputable def considerAll (fact : Fact) (kyy nn : ℤ) (iro ico : List ℤ) (val : ℝ) : List (List ℤ) → S3 → Net S3
  | [], st => .ok st
  | lb :: lbs, st =>
    match consider fact kyy nn iro ico val lb st with
    | .ok st' => considerAll fact kyy nn iro ico val lbs st'
    | .err => .err
    | .ub => .ub

/-- LnewNode and LoopNode, apop_fexact.c:899-1017. -/
noncomputable def expand (fact : Fact) (kyy nn : ℤ) (iro ico : List ℤ) (val : ℝ) (st : S3) : Net S3 :=
  match candidates (iro.length - 1) true (iro.headD 0) nn ico with
  | .ub => .ub
  | .ok lbs => considerAll fact kyy nn iro ico val lbs st

/-- f10act, apop_fexact.c:1649-1668, `nd[t]`: how many columns have a remainder of
more than `t` (what the loops make of it). -/
def ndOf (nrow : ℤ) (icol : List ℤ) (t : ℕ) : ℤ := (icol.countP (fun c => decide ((t : ℤ) < c % nrow)) : ℕ)

/-- f10act, apop_fexact.c:1670-1674; the row totals last first. -/
def f10loop (is : ℤ) (nd : ℕ → ℤ) : ℕ → ℤ → List ℤ → Bool
  | _, _, [] => true
  | _, _, [_] => true
  | t, ix, r :: r' :: rs => if ix + (is + nd t - r) < 0 then false else f10loop is nd (t + 1) (ix + (is + nd t - r)) (r' :: rs)

/-- f10act's test, apop_fexact.c:1649-1674. -/
def f10test (irow icol : List ℤ) : Bool :=
  f10loop (icol.map (· / (irow.length : ℤ))).sum (ndOf irow.length icol) 0 0 irow.reverse

/-- f10act, apop_fexact.c:1676-1680: what is added to `val`. -/
noncomputable def f10val (fact : Fact) (nrow : ℤ) : List ℤ → Res ℝ
  | [] => .ok 0
  | c :: cs =>
    match fact (c / nrow + 1), fact (c / nrow), f10val fact nrow cs with
    | .ok a, .ok b, .ok s => .ok (((c % nrow : ℤ) : ℝ) * a + ((nrow - c % nrow : ℤ) : ℝ) * b + s)
    | _, _, _ => .ub

/-- f10act, apop_fexact.c:1627-1682: `none` if FALSE. -/
noncomputable def f10act (fact : Fact) (irow icol : List ℤ) : Res (Option ℝ) :=
  if f10test irow icol = true then
    match f10val fact irow.length icol with
    | .ok s => .ok (some s)
    | .ub => .ub
  else .ok none

/-- apop_fexact.c:846-855 and 1039-1047: the tests for an optimal table; `big` is what
the code takes for the largest row total. -/
noncomputable def optimal (fact : Fact) (big : ℤ) (irow icol : List ℤ) : Res (Option ℝ) :=
  match (if big ≤ irow.headD 0 + icol.length then f10act fact irow icol else .ok none) with
  | .ub => .ub
  | .ok (some s) => .ok (some s)
  | .ok none => if icol.getLastD 0 ≤ icol.headD 0 + irow.length then f10act fact icol irow else .ok none

/-- A popped node, apop_fexact.c:1039-1053. -/
noncomputable def popOne (fact : Fact) (kyy nn big : ℤ) (iro ico : List ℤ) (val : ℝ) (st : S3) : Net S3 :=
  match optimal fact big iro ico with
  | .ub => .ub
  | .ok (some d) => .ok (st.upd (val + d))
  | .ok none => expand fact kyy nn iro ico val st

/-- L200, apop_fexact.c:1020-1053: all the nodes of a level. -/
noncomputable def popAll (fact : Fact) (kyy nn big : ℤ) (nco : ℕ) (iro : List ℤ) : List (ℤ × ℝ) → S3 → Net S3
  | [], st => .ok st
  | (key, val) :: ns, st =>
    match popOne fact kyy nn big iro (decKey kyy nco key []) val st with
    | .ok st' => popAll fact kyy nn big nco iro ns st'
    | .err => .err
    | .ub => .ub

/-- apop_fexact.c:1055-1066: the next level, while there is something on the stack and
more than two rows remain. The test for an optimal table reads `iro[nro]`, with
`nro` the number of remaining rows, from the array of all rows, `all`. -/
noncomputable def levels (fact : Fact) (kyy : ℤ) (nco : ℕ) (all : List ℤ) : List ℤ → ℤ → S3 → Net ℝ
  | [], _, st => .ok st.vmn
  | r :: rs, nn, st =>
    if 2 < (r :: rs).length ∧ st.tab ≠ [] then
      match popAll fact kyy (nn - r) (all.getD (rs.length - 1) 0) nco rs st.tab.reverse { st with tab := [] } with
      | .ok st' => levels fact kyy nco all rs (nn - r) st'
      | .err => .err
      | .ub => .ub
    else .ok st.vmn

/-- Dynamic programming over the rows `iro`, apop_fexact.c:858-1066; returns `vmn`. -/
noncomputable def dp (fact : Fact) (nn : ℤ) (iro ico : List ℤ) : Net ℝ :=
  match expand fact (ico.getLastD 0 + 1) nn iro ico 0 ⟨10 ^ 100, []⟩ with
  | .ok st => levels fact (ico.getLastD 0 + 1) ico.length iro iro nn st
  | .err => .err
  | .ub => .ub

/-- The sign of the result. -/
noncomputable def neg : Res ℝ → Net ℝ
  | .ok v => .ok (-v)
  | .ub => .ub

/-- The sign of the result. -/
noncomputable def negN : Net ℝ → Net ℝ
  | .ok v => .ok (-v)
  | .err => .err
  | .ub => .ub

/-- Larger than 2 by 2, apop_fexact.c:844-1066. The shorter side becomes the columns. -/
noncomputable def large (fact : Fact) (ntot : ℤ) (irow icol : List ℤ) : Net ℝ :=
  match optimal fact (irow.getLastD 0) irow icol with
  | .ub => .ub
  | .ok (some v) => .ok (-v)
  | .ok none =>
    if icol.length ≤ irow.length then negN (dp fact ntot irow icol) else negN (dp fact ntot icol irow)

/-- f3xact, apop_fexact.c:760-1067. -/
noncomputable def f3xact (fact : Fact) (ntot : ℤ) (irow icol : List ℤ) : Net ℝ :=
  match irow, icol with
  | [], _ => .ok 0
  | [_], _ => neg (sumFact fact icol)
  | _, [] => .ok 0
  | _, [_] => neg (sumFact fact irow)
  | [r1, r2], [c1, c2] => neg (two fact (ntot + 2) r1 c1 c2)
  | _, _ => large fact ntot irow icol

end Apop.Fisher.F3
