import Verif.Fisher.Daughter
import Mathlib.Analysis.SpecialFunctions.Log.Basic
import Mathlib.Data.List.Sort

/-! # The network algorithm of apop_fexact.c

Model of f2xact (apop_fexact.c:308-756) from the margins on: stages, nodes, past
path lengths, their merging and pruning, and the accumulation of the p value.

Arithmetic is over the reals. The two hash tables are association lists with the
code's capacities (linear probing over a table that is only added to during a
stage finds a key exactly when it is there, and fails exactly when the table is
full), so the order in which f6xact pops the nodes, and in which the linked list
of past path lengths of a node is followed, are parameters. -/

namespace Apop.Fisher
open Finset

/-- `.err`: the code calls `prterr` (has_error is set, so the result is flagged).
`.ub`: undefined behaviour. -/
inductive Net (α : Type _) where
  | ok (a : α)
  | err
  | ub

/-- The table of log factorials, apop_fexact.c:453-462: odd entries by adding a
logarithm, even entries from the entries for their half. -/
noncomputable def factC : ℕ → ℝ
  | 0 => 0
  | 1 => 0
  | 2 => Real.log 2
  | n + 3 =>
    if (n + 3) % 2 = 1 then factC (n + 2) + Real.log ((n + 3 : ℕ) : ℝ)
    else factC (n + 2) + Real.log 2 + factC ((n + 3) / 2) - factC ((n + 3) / 2 - 1)

/-- f9xact (apop_fexact.c:1606-1624): the log of a multinomial coefficient. -/
noncomputable def f9xact (ntot : ℕ) (ir : List ℕ) : ℝ := ir.foldl (fun d x => d - factC x) (factC ntot)

/-- 1-based reading of an array given as a list. -/
def arr (l : List ℕ) : ℕ → ℕ := fun i => if i = 0 then 0 else l.getD (i - 1) 0

/-- Rows 1..r of a 1-based array as a list. -/
def toList (r : ℕ) (v : ℕ → ℕ) : List ℕ := (List.range r).map (fun i => v (i + 1))

/-- The daughters' columns for a mother with row totals `l` and column total `n`
(apop_fexact.c:532-561, 733-736). -/
def daughters (l : List ℕ) (n : ℕ) : Res (List (List ℕ)) :=
  match columns l.length (arr l) n (∏ i ∈ range l.length, (arr l (i + 1) + 1)) with
  | .ub => .ub
  | .ok vs => .ok (vs.map (toList l.length))

/-- isort on the row totals (apop_fexact.c:1731-1803), by its meaning; the code itself is
modelled in `Isort.lean`, and `C196_f2xact_sort` shows that it computes this. -/
def sortUp (l : List ℕ) : List ℕ := l.insertionSort (· ≤ ·)

/-- The multipliers of the hash key, apop_fexact.c:432-444 (without the overflow
checks). -/
def kyyFrom : ℕ → List ℕ → List ℕ
  | _, [] => []
  | acc, a :: l => acc :: kyyFrom (acc * (a + 1)) l

/-- The hash key of sorted row totals, apop_fexact.c:589-594. -/
def encode (kyy irn : List ℕ) : ℕ := (List.zipWith (· * ·) irn kyy).sum

/-- f6xact's decoding of a key, apop_fexact.c:1457-1463, with the multipliers (and
the result) last first. -/
def decodeRev : List ℕ → ℕ → List ℕ
  | [], _ => []
  | [_], kval => [kval]
  | k :: k' :: ks, kval => kval / k :: decodeRev (k' :: ks) (kval - kval / k * k)

/-- f6xact's decoding of a key (apop_fexact.c:1457-1463). -/
def decode (kyy : List ℕ) (kval : ℕ) : List ℕ := (decodeRev kyy.reverse kval).reverse

/-- The binary tree of past path lengths of one node, kept by f5xact in `nl` (here
`l`), `nr` (`r`), `stp` and `ifrq`. -/
inductive Tree where
  | leaf
  | node (l : Tree) (stp : ℝ) (ifrq : ℕ) (r : Tree)

/-- All the past path lengths of a node with their frequencies. -/
noncomputable def Tree.entries : Tree → List (ℝ × ℕ)
  | .leaf => []
  | .node l s f r => (s, f) :: (l.entries ++ r.entries)

open Classical in
/-- f5xact from L40 on (apop_fexact.c:1364-1419): add a past path length, or add its
frequency to that of one within `tol`. -/
noncomputable def Tree.ins (tol p : ℝ) (f : ℕ) : Tree → Tree
  | .leaf => .node .leaf p f .leaf
  | .node l s g r =>
    if s < p - tol then .node (l.ins tol p f) s g r
    else if p + tol < s then .node l s g (r.ins tol p f)
    else .node l s (g + f) r

open Classical in
/-- Did f5xact use a new place for it (apop_fexact.c:1382-1393)? -/
noncomputable def Tree.isNew (tol p : ℝ) : Tree → Bool
  | .leaf => true
  | .node l s _ r =>
    if s < p - tol then l.isNew tol p else if p + tol < s then r.isNew tol p else false

/-- What the stages share. -/
structure Par where
  /-- apop_fexact.c:327 -/
  tol : ℝ
  /-- the observed path length, plus `tol` (apop_fexact.c:464-482) -/
  obs : ℝ
  /-- apop_fexact.c:484 -/
  dro : ℝ
  kyy : List ℕ
  ldkey : ℕ
  ldstp : ℕ
  /-- f3xact: the longest path of the remaining table, for its (nonzero) rows and its columns -/
  lp : List ℕ → List ℕ → Net ℝ
  /-- f4xact: the shortest path -/
  sp : List ℕ → List ℕ → Net ℝ
  /-- the order in which a node's past path lengths are followed -/
  ord : List (ℝ × ℕ) → List (ℝ × ℕ)
  /-- the order in which the nodes are popped -/
  pop : List (ℕ × Tree) → List (ℕ × Tree)

/-- The state of a stage: the p value so far, the keys in `key2`, the hash table with
its trees, and `itop`. -/
structure St where
  pre : ℝ
  seen : List ℕ
  tab : List (ℕ × Tree)
  itop : ℕ

/-- f5xact when the key is in the table; `none`: it is not there (apop_fexact.c:1307-1326). -/
noncomputable def putTab (tol : ℝ) (key : ℕ) (p : ℝ) (f : ℕ) : List (ℕ × Tree) → Option (List (ℕ × Tree) × Bool)
  | [] => none
  | (k, t) :: tab =>
    if k = key then some ((k, t.ins tol p f) :: tab, t.isNew tol p)
    else
      match putTab tol key p f tab with
      | none => none
      | some (tab', b) => some ((k, t) :: tab', b)

/-- f5xact (apop_fexact.c:1265-1419): put a past path length at the node `key`. -/
noncomputable def put (P : Par) (key : ℕ) (p : ℝ) (f : ℕ) (st : St) : Net St :=
  match putTab P.tol key p f st.tab with
  | some (tab, new) =>
    if new = true then
      if P.ldstp < st.itop + 1 then .err else .ok { st with tab := tab, itop := st.itop + 1 }
    else .ok { st with tab := tab }
  | none =>
    if P.ldkey ≤ st.tab.length then .err
    else if P.ldstp < st.itop + 1 then .err
    else .ok { st with tab := st.tab ++ [(key, .node .leaf p f .leaf)], itop := st.itop + 1 }

open Classical in
/-- apop_fexact.c:706-732, L300: process a daughter with each of the past path
lengths of its mother. -/
noncomputable def visit (P : Par) (obs3 obs2 drn ddf : ℝ) (key : ℕ) : List (ℝ × ℕ) → St → Net St
  | [], st => .ok st
  | (p, f) :: es, st =>
    if p ≤ obs3 then visit P obs3 obs2 drn ddf key es { st with pre := st.pre + (f : ℝ) * Real.exp (p + drn) }
    else if p < obs2 then
      match put P key (p + ddf) f st with
      | .ok st' => visit P obs3 obs2 drn ddf key es st'
      | .err => .err
      | .ub => .ub
    else visit P obs3 obs2 drn ddf key es st

/-- apop_fexact.c:562-564: what the column leaves in each row. -/
def leave (l d : List ℕ) : List ℕ := List.zipWith (· - ·) l d

/-- apop_fexact.c:575-580: the rows that are not zero, after sorting. -/
def dropZeros (l : List ℕ) : List ℕ := l.dropWhile (fun x => x == 0)

/-- apop_fexact.c:639-641: the observed path length less what is common to all
completions. -/
noncomputable def obsLess (P : Par) (rest : List ℕ) (ddf : ℝ) : ℝ :=
  rest.foldl (fun o c => o - factC c) (P.obs - ddf)

open Classical in
/-- apop_fexact.c:650-653, 660-663: a positive bound is replaced by zero. -/
noncomputable def clamp (x : ℝ) : ℝ := if 0 < x then 0 else x

/-- apop_fexact.c:643-663: the bounds for a daughter. They are kept in `LP` and `SP`
for the next daughter with the same key. -/
noncomputable def bounds (P : Par) (rows cols : List ℕ) : Net (ℝ × ℝ) :=
  match P.lp rows cols with
  | .ok lp =>
    match P.sp rows cols with
    | .ok sp => .ok (clamp lp, clamp sp)
    | .err => .err
    | .ub => .ub
  | .err => .err
  | .ub => .ub

/-- L150 to L300, apop_fexact.c:561-732, with more than one column remaining. -/
noncomputable def innerDaughter (P : Par) (n : ℕ) (rest : List ℕ) (chain : List (ℝ × ℕ)) (d irn : List ℕ) (st : St) : Net St :=
  if encode P.kyy irn ∉ st.seen ∧ 2 * P.ldkey ≤ st.seen.length then .err
  else
    match bounds P (dropZeros irn) rest with
    | .ok b =>
      visit P (obsLess P rest (f9xact n d) - b.1) (obsLess P rest (f9xact n d) - b.2)
        (f9xact rest.sum (dropZeros irn) - P.dro + f9xact n d) (f9xact n d) (encode P.kyy irn) chain
        { st with seen := if encode P.kyy irn ∈ st.seen then st.seen else encode P.kyy irn :: st.seen }
    | .err => .err
    | .ub => .ub

/-- L150 to L300, apop_fexact.c:561-732, with one column remaining. -/
noncomputable def lastDaughter (P : Par) (n : ℕ) (rest : List ℕ) (chain : List (ℝ × ℕ)) (d irn : List ℕ) (st : St) : Net St :=
  visit P (P.obs - (f9xact rest.sum irn - P.dro + f9xact n d) - P.dro)
    (P.obs - (f9xact rest.sum irn - P.dro + f9xact n d) - P.dro)
    (f9xact rest.sum irn - P.dro + f9xact n d) (f9xact n d) 0 chain st

/-- One daughter, apop_fexact.c:561-732. -/
noncomputable def daughter (P : Par) (l : List ℕ) (n : ℕ) (rest : List ℕ) (chain : List (ℝ × ℕ)) (d : List ℕ) (st : St) : Net St :=
  if 1 < rest.length then innerDaughter P n rest chain d (sortUp (leave l d)) st
  else lastDaughter P n rest chain d (leave l d) st

/-- All daughters of a mother, apop_fexact.c:561-736. -/
noncomputable def allDaughters (P : Par) (l : List ℕ) (n : ℕ) (rest : List ℕ) (chain : List (ℝ × ℕ)) : List (List ℕ) → St → Net St
  | [], st => .ok st
  | d :: ds, st =>
    match daughter P l n rest chain d st with
    | .ok st' => allDaughters P l n rest chain ds st'
    | .err => .err
    | .ub => .ub

/-- One mother node, apop_fexact.c:532-736 (Outer_Loop). -/
noncomputable def mother (P : Par) (l : List ℕ) (n : ℕ) (rest : List ℕ) (chain : List (ℝ × ℕ)) (st : St) : Net St :=
  match daughters l n with
  | .ub => .ub
  | .ok ds => allDaughters P l n rest chain ds st

/-- All the mothers of a stage, apop_fexact.c:739-743. -/
noncomputable def stage (P : Par) (n : ℕ) (rest : List ℕ) : List (List ℕ × List (ℝ × ℕ)) → St → Net St
  | [], st => .ok st
  | (l, chain) :: ms, st =>
    match mother P l n rest chain st with
    | .ok st' => stage P n rest ms st'
    | .err => .err
    | .ub => .ub

/-- The mothers of the next stage, as f6xact pops them (apop_fexact.c:1421-1470). -/
noncomputable def mothers (P : Par) (tab : List (ℕ × Tree)) : List (List ℕ × List (ℝ × ℕ)) :=
  (P.pop tab).map (fun kt => (decode P.kyy kt.1, P.ord kt.2.entries))

/-- All the stages, apop_fexact.c:532-756: `cols` are the columns still to be filled.
Returns the p value. -/
noncomputable def network (P : Par) : List ℕ → List (List ℕ × List (ℝ × ℕ)) → ℝ → Net ℝ
  | [], _, pre => .ok pre
  | n :: rest, ms, pre =>
    if rest = [] then .ok pre
    else
      match stage P n rest ms ⟨pre, [], [], 0⟩ with
      | .ok st => network P rest (mothers P st.tab) st.pre
      | .err => .err
      | .ub => .ub

end Apop.Fisher
