import Verif.Conv.FillProps

/-! # Prepping a model: `apop_model_clear`, the default `apop_prep` and `apop_model_set_parameters`
(apop_model.m4.c:20-44, 208-219, 447-450) -- C109

The parts of an `apop_model` that these functions read or write. `data` is the data set pointed to. -/

namespace Apop.Mod
variable {α : Type}

/-- `apop_model` (apop.m4.h:95-130), the elements used here; sizes are C `int`s. -/
structure Model (α : Type) where
  dsize : Int := 0
  vsize : Int := 0
  msize1 : Int := 0
  msize2 : Int := 0
  parameters : Option (Page α) := none
  info : Option (Page α) := none
  data : Option (Page α) := none
  error : Option Char := none
  deriving DecidableEq, Repr

/-- `msize2 ? msize2 : -firstcol` after `Get_vmsizes(data)`, apop_model.m4.c:21-22 and apop_internal.h:8-16:
the number of matrix columns (narrowed to `int`), else one if there is a vector. -/
def width (d : Option (Page α)) : Int :=
  let msize2 := ((d.bind (·.matrix)).map (fun m => Page.toInt32 m.cols)).getD 0
  if msize2 ≠ 0 then msize2 else if (d.bind (·.vector)).isSome then 1 else 0

/-- `size == -1 ? width : size`, apop_model.m4.c:28-31. -/
def fillIn (w size : Int) : Int := if size = -1 then w else size

/-- The four checks, apop_model.m4.c:23-26: each sets the error and goes on. -/
def checkSize (w size : Int) (e : Option Char) : Option Char := if size = -1 ∧ w = 0 then some 'd' else e

/-- An `int` argument passed as `size_t` (x86-64). -/
def toSize (x : Int) : Nat := (x % 2 ^ 64).toNat

/-- The parameters after apop_model.m4.c:32-33 (the product is taken without overflow). -/
def allocParams (junk : α) (v m1 m2 : Int) (old : Option (Page α)) : Option (Page α) :=
  match old with
  | some p => some p
  | none => if v ≠ 0 ∨ m1 * m2 ≠ 0 then some (Page.allocWith junk (toSize v) (toSize m1) m2) else none

/-- The bytes of `<Info>`. -/
def infoTitle : CStr := [60, 73, 110, 102, 111, 62]

/-- The info page titled, apop_model.m4.c:35-37. -/
def titled (p : Page α) : Page α := { p with names := p.names.map (fun n => { n with title := some infoTitle }) }

/-- The info page after apop_model.m4.c:34-37; its `names` must not be NULL. -/
def infoPage (i : Option (Page α)) : Res (Option (Page α)) :=
  match i.getD Page.empty with
  | p => if p.names.isSome then .ok (some (titled p)) else .ub

/-- `apop_model_clear`, apop_model.m4.c:20-40, the default action of `apop_prep` (447-450). -/
def clear (junk : α) (d : Option (Page α)) (m : Model α) : Res (Model α) :=
  let w := width d
  (infoPage m.info).bind fun i => .ok
    { m with
      error := checkSize w m.msize2 (checkSize w m.msize1 (checkSize w m.vsize (checkSize w m.dsize m.error)))
      dsize := fillIn w m.dsize
      parameters := allocParams junk (fillIn w m.vsize) (fillIn w m.msize1) (fillIn w m.msize2) m.parameters
      info := i
      data := m.data.or d }

/-- Filling the parameters, apop_model.m4.c:217 (`apop_data_fill_base(NULL)` does nothing). -/
def fillParams (ap : List α) : Option (Page α) → Res (Option (Page α))
  | none => .ok none
  | some p => (Conv.fill ap p).bind fun r => .ok (some r.1)

/-- `apop_model_set_parameters_base`, apop_model.m4.c:208-219, for a model with the default prep and neither parameters
nor info page (so that `apop_model_copy` copies no data set; the copying of settings groups is C24). The error is set
and the function goes on. -/
def setParameters (junk : α) (m : Model α) (ap : List α) : Res (Model α) :=
  (clear junk none m).bind fun out =>
  (fillParams ap out.parameters).bind fun p => .ok
    { out with
      error := if m.vsize = -1 ∨ m.msize1 = -1 ∨ m.msize2 = -1 then some 'd' else out.error
      parameters := p }

end Apop.Mod
