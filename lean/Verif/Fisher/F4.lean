import Verif.Fisher.F3

/-! # f4xact: the shortest path

Model of f4xact, f8xact and f11act (apop_fexact.c:1069-1262, 1569-1604, 1684-1698).
Row and column totals are natural numbers: f4xact only takes the smaller of two
from the larger. The stacks `irstk`, `icstk`, `nrstk`, `ncstk`, `ystk`, `lstk`,
`mstk`, `nstk` hold, for each level, what here are the arguments of `dfs` and the
rest of the list of cells. Sums of doubles are over the reals. Indices start at
zero. -/

namespace Apop.Fisher.F3
open Apop Apop.Fisher

/-- f11act, apop_fexact.c:1684-1698: the totals without entry `i`. -/
def f11act (l : List ℕ) (i : ℕ) : List ℕ := l.take i ++ l.drop (i + 1)

/-- f8xact's second and third loop, apop_fexact.c:1592-1603. -/
def f8ins (is : ℕ) : List ℕ → List ℕ
  | [] => [is]
  | x :: l => if x ≤ is then is :: x :: l else x :: f8ins is l

/-- f8xact, apop_fexact.c:1569-1604: the totals with entry `i` replaced by `is`, which
is moved to its place. -/
def f8xact (l : List ℕ) (is i : ℕ) : List ℕ := l.take i ++ f8ins is (l.drop (i + 1))

/-- apop_fexact.c:1154-1174: `m`, and whether `n` is 1. -/
def choose (r c : List ℕ) : ℕ × Bool :=
  if c.headD 0 < r.headD 0 then
    (if c.length ≤ r.length then (c.length - 1, false) else (r.length, true))
  else if r.headD 0 < c.headD 0 then
    (if r.length ≤ c.length then (r.length - 1, true) else (c.length, false))
  else
    (if r.length ≤ c.length then (r.length - 1, true) else (c.length - 1, false))

/-- The values of `l` that are used: the first, and those up to `m` for which the total
is smaller than the one before, apop_fexact.c:1243-1260. -/
def tried (t : List ℕ) (m : ℕ) : List ℕ :=
  (List.range m).filter (fun k => k = 0 ∨ t.getD k 0 < t.getD (k - 1) 0)

/-- The cells that are used, apop_fexact.c:1177-1181. -/
def cells (r c : List ℕ) : List (ℕ × ℕ) :=
  if (choose r c).2 = true then (tried r (choose r c).1).map (fun l => (l, 0))
  else (tried c (choose r c).1).map (fun l => (0, l))

/-- The totals of the next level, apop_fexact.c:1186-1205. -/
def next (r c : List ℕ) (i j : ℕ) : List ℕ × List ℕ :=
  if r.getD i 0 = c.getD j 0 then (f11act r i, f11act c j)
  else if c.getD j 0 < r.getD i 0 then (f8xact r (r.getD i 0 - c.getD j 0) i, f11act c j)
  else (f11act r i, f8xact c (c.getD j 0 - r.getD i 0) j)

/-- What the search ends with: the largest sum so far, or an early `return -dspt`. -/
inductive R4 where
  | run (amx : ℝ)
  | stop
  | ub

open Classical in
/-- The end of a path, apop_fexact.c:1228-1232. -/
noncomputable def leaf (dspt y amx : ℝ) : R4 :=
  if amx < y then (if dspt - y ≤ tolC then .stop else .run y) else .run amx

/-- What is added at the end of a path. -/
noncomputable def endPath (dspt y amx : ℝ) : Res ℝ → R4
  | .ok s => leaf dspt (y + s) amx
  | .ub => .ub

/-- apop_fexact.c:1207-1225: one row or column is left, or the next level. -/
noncomputable def descend (fact : Fact) (dspt : ℝ) (rec : List ℕ → List ℕ → ℝ → ℝ → R4) (p : List ℕ × List ℕ) (y amx : ℝ) : R4 :=
  if p.1.length = 1 then endPath dspt y amx (sumFact fact (p.2.map (fun x : ℕ => (x : ℤ))))
  else if p.2.length = 1 then endPath dspt y amx (sumFact fact (p.1.map (fun x : ℕ => (x : ℤ))))
  else rec p.1 p.2 y amx

/-- L60, apop_fexact.c:1176-1225: a cell. -/
noncomputable def child (fact : Fact) (dspt : ℝ) (rec : List ℕ → List ℕ → ℝ → ℝ → R4) (r c : List ℕ) (y : ℝ) (ij : ℕ × ℕ) (amx : ℝ) : R4 :=
  match fact ((min (r.getD ij.1 0) (c.getD ij.2 0) : ℕ) : ℤ) with
  | .ub => .ub
  | .ok f => descend fact dspt rec (next r c ij.1 ij.2) (y + f) amx

/-- One cell after the other, apop_fexact.c:1234-1261. -/
noncomputable def each (f : ℕ × ℕ → ℝ → R4) : List (ℕ × ℕ) → ℝ → R4
  | [], amx => .run amx
  | p :: ps, amx =>
    match f p amx with
    | .run a => each f ps a
    | .stop => .stop
    | .ub => .ub

/-- The search, apop_fexact.c:1152-1261, with totals in descending order. The number
bounds the depth; `C195_shortest_path_returns` shows that it is large enough. -/
noncomputable def dfs (fact : Fact) (dspt : ℝ) : ℕ → List ℕ → List ℕ → ℝ → ℝ → R4
  | 0, _, _, _, _ => .ub
  | n + 1, r, c, y, amx => each (child fact dspt (dfs fact dspt n) r c y) (cells r c) amx

open Classical in
/-- What is returned, apop_fexact.c:1236-1241. -/
noncomputable def result (dspt : ℝ) : R4 → Net ℝ
  | .run amx => if dspt - amx - amx ≤ tolC then .ok (-dspt) else .ok (dspt - amx - dspt)
  | .stop => .ok (-dspt)
  | .ub => .ub

/-- f4xact, apop_fexact.c:1069-1262; totals in ascending order. In the case of two rows
and two columns the arrays are 0-based, so `irow[1]` and `icol[1]` are the second
totals. -/
noncomputable def f4xact (fact : Fact) (dspt : ℝ) (irow icol : List ℕ) : Net ℝ :=
  match irow, icol with
  | [], _ => .ub
  | [_], _ => neg (sumFact fact (icol.map (fun x : ℕ => (x : ℤ))))
  | _, [] => .ub
  | _, [_] => neg (sumFact fact (irow.map (fun x : ℕ => (x : ℤ))))
  | [_, r2], [_, c2] =>
    if r2 ≤ c2 then neg (sumFact fact ([r2, c2, c2 - r2].map (fun x : ℕ => (x : ℤ))))
    else neg (sumFact fact ([c2, r2, r2 - c2].map (fun x : ℕ => (x : ℤ))))
  | _, _ => result dspt (dfs fact dspt (irow.length + icol.length) irow.reverse icol.reverse 0 0)

/-- f4xact as f2xact calls it, apop_fexact.c:644, 656: `dspt` is the sum of the logs of
the factorials of the column totals. -/
noncomputable def f4 (fact : Fact) (rows cols : List ℕ) : Net ℝ := f4xact fact (cols.map factC).sum rows cols

end Apop.Fisher.F3
