import Verif.Base.C
import Mathlib.Algebra.BigOperators.Intervals
import Mathlib.Data.List.Nodup
import Mathlib.Tactic.Ring

/-! # The columns the network algorithm generates

Model of the loops of apop_fexact.c that generate, for given row totals, every
possible next column: the first one (f2xact, lines 532-554) and its successors
(f7xact, lines 1473-1566). Arrays are 1-based functions, as in the code after its
"parameter adjustments". -/

namespace Apop.Fisher
open Finset

/-- Array store. -/
def upd (d : ℕ → ℕ) (k v : ℕ) : ℕ → ℕ := fun i => if i = k then v else d i

/-- apop_fexact.c:1540-1545 (and 543-550 without `kmax`): put as much as fits in row
`k`, then in the rows below it, until all `n` units are placed or row 1 is done.
Returns the last row visited, what is left over, and the column. -/
def fill (imax : ℕ → ℕ) : ℕ → ℕ → (ℕ → ℕ) → ℕ × ℕ × (ℕ → ℕ)
  | 0, n, d => (0, n, d)
  | k + 1, n, d =>
    if 0 < n - min n (imax (k + 1)) ∧ k ≠ 0 then
      fill imax k (n - min n (imax (k + 1))) (upd d (k + 1) (min n (imax (k + 1))))
    else (k + 1, n - min n (imax (k + 1)), upd d (k + 1) (min n (imax (k + 1))))

/-- The state the generator keeps between calls: the column `idif`, the row to
decrement `k`, the row to increment `ks` (0: not known yet). -/
structure Gen where
  d : ℕ → ℕ
  k : ℕ
  ks : ℕ

/-- apop_fexact.c:542-550: the loop that makes the first daughter, with its
adjustment of `kmax`. -/
def firstLoop (imax : ℕ → ℕ) : ℕ → ℕ → ℕ → (ℕ → ℕ) → ℕ × ℕ × (ℕ → ℕ) × ℕ
  | 0, n, kmax, d => (0, n, d, kmax)
  | k + 1, n, kmax, d =>
    if 0 < n - min n (imax (k + 1)) ∧ k ≠ 0 then
      firstLoop imax k (n - min n (imax (k + 1)))
        (if upd d (k + 1) (min n (imax (k + 1))) kmax = 0 then kmax - 1 else kmax)
        (upd d (k + 1) (min n (imax (k + 1))))
    else (k + 1, n - min n (imax (k + 1)), upd d (k + 1) (min n (imax (k + 1))),
      if upd d (k + 1) (min n (imax (k + 1))) kmax = 0 then kmax - 1 else kmax)

/-- apop_fexact.c:1497-1500: `do ++ks while (idif[ks] == imax[ks])`. Running past
the `n` rows of the arrays is undefined. -/
def ksUp (imax d : ℕ → ℕ) (n : ℕ) : ℕ → ℕ → Res ℕ
  | 0, _ => .ub
  | fuel + 1, ks =>
    if n < ks + 1 then .ub
    else if d (ks + 1) = imax (ks + 1) then ksUp imax d n fuel (ks + 1) else .ok (ks + 1)

/-- apop_fexact.c:1505-1507: `do --k while (imax[k] == 0)`. -/
def kDown (imax : ℕ → ℕ) : ℕ → Res ℕ
  | 0 => .ub
  | k + 1 => if k = 0 then .ub else if imax k = 0 then kDown imax k else .ok k

/-- apop_fexact.c:1512-1514: `while (idif[m] >= imax[m]) --m`. -/
def mDown (imax d : ℕ → ℕ) : ℕ → Res ℕ
  | 0 => .ub
  | m + 1 => if imax (m + 1) ≤ d (m + 1) then mDown imax d m else .ok (m + 1)

/-- apop_fexact.c:1523-1527: the first row after `k` with something in it. -/
def findNZ (d : ℕ → ℕ) : ℕ → ℕ → Option ℕ
  | 0, _ => .none
  | c + 1, k => if 0 < d (k + 1) then .some (k + 1) else findNZ d c (k + 1)

/-- apop_fexact.c:1534-1537: empty rows 1..k. -/
def clear (d : ℕ → ℕ) (k : ℕ) : ℕ → ℕ := fun i => if 1 ≤ i ∧ i ≤ k then 0 else d i

/-- Sum of rows 1..k (apop_fexact.c:1533-1537). -/
def low (d : ℕ → ℕ) (k : ℕ) : ℕ := ∑ i ∈ range k, d (i + 1)

/-- apop_fexact.c:1558-1564: the first row that is not full, up to row `k + 1`. -/
def ksFind (imax d : ℕ → ℕ) (k : ℕ) : ℕ → ℕ → ℕ
  | 0, ks => ks
  | fuel + 1, ks =>
    if k < ks + 1 then ks + 1
    else if imax (ks + 1) ≤ d (ks + 1) then ksFind imax d k fuel (ks + 1) else ks + 1

/-- apop_fexact.c:1521-1565: the part of f7xact labelled Loop. `none`: no more
columns (iflag = 1). -/
def f7Loop (nrow : ℕ) (imax : ℕ → ℕ) : ℕ → (ℕ → ℕ) → ℕ → Option Gen
  | 0, _, _ => .none
  | fuel + 1, d, k =>
    match findNZ d (nrow - k) k with
    | .none => .none
    | .some kk =>
      if 0 < (fill imax (kk - 1) (1 + low d k) (clear d k)).2.1 then
        if kk ≠ nrow then f7Loop nrow imax fuel (fill imax (kk - 1) (1 + low d k) (clear d k)).2.2 kk
        else .none
      else
        .some ⟨upd (fill imax (kk - 1) (1 + low d k) (clear d k)).2.2 kk
            ((fill imax (kk - 1) (1 + low d k) (clear d k)).2.2 kk - 1),
          (fill imax (kk - 1) (1 + low d k) (clear d k)).1,
          ksFind imax (upd (fill imax (kk - 1) (1 + low d k) (clear d k)).2.2 kk
            ((fill imax (kk - 1) (1 + low d k) (clear d k)).2.2 kk - 1))
            (fill imax (kk - 1) (1 + low d k) (clear d k)).1 (kk + 1) 0⟩

/-- apop_fexact.c:1503-1519: move one unit from row `k` to the rows below. -/
def f7Dec (imax : ℕ → ℕ) (g : Gen) : Res Gen :=
  match kDown imax g.k with
  | .ub => .ub
  | .ok k =>
    match mDown imax (upd g.d g.k (g.d g.k - 1)) k with
    | .ub => .ub
    | .ok m =>
      .ok ⟨upd (upd g.d g.k (g.d g.k - 1)) m (upd g.d g.k (g.d g.k - 1) m + 1), k,
        if m = g.ks ∧ upd g.d g.k (g.d g.k - 1) m + 1 = imax m then k else g.ks⟩

/-- f7xact (apop_fexact.c:1473-1566) with `ks` known. -/
def f7Known (nrow : ℕ) (imax : ℕ → ℕ) (g : Gen) : Res (Option Gen) :=
  if 0 < g.d g.k ∧ g.ks < g.k then
    match f7Dec imax g with
    | .ub => .ub
    | .ok g' => .ok (.some g')
  else .ok (f7Loop nrow imax (nrow + 1) g.d g.k)

/-- f7xact (apop_fexact.c:1473-1566); `nro` is the length of the arrays. -/
def f7xact (nro nrow : ℕ) (imax : ℕ → ℕ) (g : Gen) : Res (Option Gen) :=
  if g.ks = 0 then
    match ksUp imax g.d nro (nro + 1) 0 with
    | .ub => .ub
    | .ok ks => f7Known nrow imax ⟨g.d, g.k, ks⟩
  else f7Known nrow imax g

/-- The successive columns, from the current one on (apop_fexact.c:561-736: L150,
then f7xact, until iflag is 1). -/
def columnsFrom (nro nrow : ℕ) (imax : ℕ → ℕ) : ℕ → Gen → Res (List (ℕ → ℕ))
  | 0, _ => .ub
  | fuel + 1, g =>
    match f7xact nro nrow imax g with
    | .ub => .ub
    | .ok .none => .ok [g.d]
    | .ok (.some g') =>
      match columnsFrom nro nrow imax fuel g' with
      | .ub => .ub
      | .ok l => .ok (g.d :: l)

/-- All the columns one mother node generates (apop_fexact.c:532-554 and L150 to
736). `fuel` bounds the number of columns; Res.ub stands for both undefined
behaviour and `fuel` columns not being enough. When the column does not fit (n ≠ 0
after the first loop, lines 552-553) there are none. -/
def columns (nro : ℕ) (imax : ℕ → ℕ) (n fuel : ℕ) : Res (List (ℕ → ℕ)) :=
  if (firstLoop imax nro n nro (fun _ => 0)).2.1 ≠ 0 then .ok []
  else columnsFrom nro (firstLoop imax nro n nro (fun _ => 0)).2.2.2 imax fuel
    ⟨(firstLoop imax nro n nro (fun _ => 0)).2.2.1, (firstLoop imax nro n nro (fun _ => 0)).1, 0⟩

end Apop.Fisher
