import Mathlib.Data.Rat.Defs
import Mathlib.Algebra.Order.Field.Rat
import Mathlib.Tactic.Linarith
import Mathlib.Tactic.NormNum
import Verif.Base.C

/-! # The default `apop_cdf` and its settings group (apop_model.m4.c:499-563) -- C111, C112

The state is the memory that `apop_cdf_settings` groups use: draw matrices, reference counters and the groups. A freed
matrix or group is `none`. What the RNG and the model's draw method give is part of the operation. -/

namespace Apop.Mod.Cdf
variable {α : Type}

/-- `lte`, apop_model.m4.c:500-505, on a draw and what is left of the point; a point with fewer elements than the draw
is a GSL range error. `gt a b` is the `double` comparison `a > b`. -/
def lte (gt : α → α → Bool) : List α → List α → Res Bool
  | [], _ => .ok true
  | _ :: _, [] => .ub
  | x :: xs, r :: rs => if gt x r then .ok false else lte gt xs rs

/-- The tally loop, apop_model.m4.c:541-542. -/
def tally (gt : α → α → Bool) (ref : List α) : List (List α) → Res Nat
  | [] => .ok 0
  | d :: ds => (lte gt d ref).bind fun b => (tally gt ref ds).bind fun n => .ok ((if b then 1 else 0) + n)

/-- An `apop_cdf_settings` struct: number of draws, pointer to the draws made (index in the memory), pointer to the counter. -/
structure Group where
  draws : Nat
  made : Option Nat
  ctr : Nat
  deriving DecidableEq, Repr

/-- The memory. -/
structure World (α : Type) where
  mats : List (Option (List (List α))) := []
  ctrs : List Int := []
  groups : List (Option Group) := []
  deriving Repr

/-- What a program does with the groups. -/
inductive Op (α : Type) where
  | add (draws : Nat)
  | copy (g : Nat)
  | free (g : Nat)
  /-- `apop_cdf`: the group of the model, its `dsize`, the packed point, and what drawing would give. -/
  | cdf (g : Nat) (dsize : Nat) (ref : List α) (rows : List (List α))

/-- The group behind a pointer; using a freed one is undefined. -/
def World.group (w : World α) (g : Nat) : Res Group :=
  match w.groups[g]? with
  | some (some x) => .ok x
  | _ => .ub

/-- The matrix behind a pointer. -/
def World.mat (w : World α) (k : Nat) : Res (List (List α)) :=
  match w.mats[k]? with
  | some (some x) => .ok x
  | _ => .ub

/-- `Apop_settings_init(apop_cdf, ..)`, apop_model.m4.c:548-553: a counter of its own, set to one. -/
def World.add (w : World α) (draws : Nat) : World α :=
  { w with ctrs := w.ctrs ++ [1], groups := w.groups ++ [some ⟨draws, none, w.ctrs.length⟩] }

/-- `Apop_settings_copy(apop_cdf, ..)`, apop_model.m4.c:560-562: all pointers are shared, the counter goes up. -/
def World.copy (w : World α) (g : Nat) : Res (World α) :=
  (w.group g).bind fun x => (rd w.ctrs x.ctr).bind fun c =>
  .ok { w with ctrs := w.ctrs.set x.ctr (c + 1), groups := w.groups ++ [some x] }

/-- `gsl_matrix_free`; freeing twice is undefined. -/
def World.freeMat (w : World α) (k : Nat) : Res (World α) :=
  (w.mat k).bind fun _ => .ok { w with mats := w.mats.set k none }

/-- The counter is only looked at if there are draws, apop_model.m4.c:556. -/
def World.release (w : World α) (x : Group) : Res (World α) :=
  match x.made with
  | none => .ok w
  | some k => (rd w.ctrs x.ctr).bind fun c =>
    let w := { w with ctrs := w.ctrs.set x.ctr (c - 1) }
    if c - 1 = 0 then w.freeMat k else .ok w

/-- `Apop_settings_free(apop_cdf, ..)`, apop_model.m4.c:555-558, and the freeing of the struct. -/
def World.free (w : World α) (g : Nat) : Res (World α) :=
  (w.group g).bind fun x => (w.release x).bind fun w =>
  .ok { w with groups := w.groups.set g none }

/-- Drawing, apop_model.m4.c:537-539. -/
def World.fill (w : World α) (g : Nat) (x : Group) (rows : List (List α)) : World α :=
  { w with mats := w.mats ++ [some rows], groups := w.groups.set g (some { x with made := some w.mats.length }) }

/-- `tally/(double)size1`, apop_model.m4.c:544; `none` is NaN. -/
def ratio (n size : Nat) : Option ℚ := if size = 0 then none else some ((n : ℚ) / size)

/-- The tally over the stored draws, apop_model.m4.c:541-544. -/
def World.eval (w : World α) (gt : α → α → Bool) (ref : List α) (k : Nat) : Res (Option ℚ) :=
  (w.mat k).bind fun d => (tally gt ref d).bind fun n => .ok (ratio n d.length)

/-- `apop_cdf` for a model without a cdf method but with the group, apop_model.m4.c:526-545. -/
def World.cdf (w : World α) (gt : α → α → Bool) (g dsize : Nat) (ref : List α) (rows : List (List α)) :
    Res (World α × Option ℚ) :=
  (w.group g).bind fun x =>
  match x.made with
  | some k => (w.eval gt ref k).bind fun v => .ok (w, v)
  | none =>
    if dsize = 0 then .ok (w, none)
    else
      let w := w.fill g x rows
      (w.eval gt ref (w.mats.length - 1)).bind fun v => .ok (w, v)

/-- One operation, with the value of a cdf. -/
def World.step (gt : α → α → Bool) (w : World α) : Op α → Res (World α × Option (Option ℚ))
  | .add n => .ok (w.add n, none)
  | .copy g => (w.copy g).bind fun w => .ok (w, none)
  | .free g => (w.free g).bind fun w => .ok (w, none)
  | .cdf g n ref rows => (w.cdf gt g n ref rows).bind fun r => .ok (r.1, some r.2)

/-- A program: the values of all its cdf calls, and the memory at its end. -/
def World.run (gt : α → α → Bool) : World α → List (Op α) → Res (World α × List (Option ℚ))
  | w, [] => .ok (w, [])
  | w, o :: os => (w.step gt o).bind fun r => (World.run gt r.1 os).bind fun s => .ok (s.1, r.2.toList ++ s.2)

/-! ## Specification: groups that each have their own value -/

/-- A group as the user sees it: how many draws it is to make, and the draws, once made. -/
structure View (α : Type) where
  draws : Nat
  rows : Option (List (List α))

/-- The point is at or above the draw in every coordinate. -/
def Below [LinearOrder α] (d ref : List α) : Prop := ∀ (i : Nat) (h : i < d.length) (h' : i < ref.length), d[i] ≤ ref[i]

instance [LinearOrder α] (d ref : List α) : Decidable (Below d ref) := by unfold Below; infer_instance

/-- The fraction of the draws at or below the point. -/
def fraction [LinearOrder α] (ref : List α) (rows : List (List α)) : ℚ :=
  ((rows.filter (fun d => decide (Below d ref))).length : ℚ) / rows.length

/-- What each operation means for the groups; `none`: not a legal operation (use of a freed group, point too short, no draws). -/
inductive Means [LinearOrder α] : List (Option (View α)) → Op α → List (Option (View α)) → List (Option ℚ) → Prop
  | add (s n) (hn : 0 < n) : Means s (.add n) (s ++ [some ⟨n, none⟩]) []
  | copy (s g v) (h : s[g]? = some (some v)) : Means s (.copy g) (s ++ [some v]) []
  | free (s g v) (h : s[g]? = some (some v)) : Means s (.free g) (s.set g none) []
  | again (s g n ref rows v d) (h : s[g]? = some (some v)) (hd : v.rows = some d) (hr : ∀ r ∈ d, r.length ≤ ref.length) :
      Means s (.cdf g n ref rows) s [some (fraction ref d)]
  | first (s g n ref rows v) (h : s[g]? = some (some v)) (hd : v.rows = none) (hn : 0 < n) (hl : rows.length = v.draws)
      (hp : 0 < v.draws) (hw : ∀ r ∈ rows, r.length = n) (hr : n ≤ ref.length) :
      Means s (.cdf g n ref rows) (s.set g (some ⟨v.draws, some rows⟩)) [some (fraction ref rows)]
  | nosize (s g ref rows v) (h : s[g]? = some (some v)) (hd : v.rows = none) : Means s (.cdf g 0 ref rows) s [none]

/-- A whole history. -/
inductive History [LinearOrder α] : List (Option (View α)) → List (Op α) → List (Option (View α)) → List (Option ℚ) → Prop
  | nil (s) : History s [] s []
  | cons (s s' s'' o os v vs) (h : Means s o s' v) (t : History s' os s'' vs) : History s (o :: os) s'' (v ++ vs)

end Apop.Mod.Cdf
