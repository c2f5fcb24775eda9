import Verif.Base.C
import Verif.Dist.LogLik
import Mathlib.MeasureTheory.Function.Jacobian
import Mathlib.Analysis.SpecialFunctions.Log.Deriv

/-! # C144-C145: transformed coordinates (transform/apop_coordinate_transform.c)

Exact arithmetic with minus infinity and NaN. -/

namespace Apop.Transform.Coord

open Apop Real Apop.Dist MeasureTheory

/-- A `double`: a number, minus infinity or NaN. -/
inductive Num where
  | val (x : ℝ)
  | ninf
  | nan

/-- `log` (C). -/
noncomputable def clog (x : ℝ) : Num := if 0 < x then .val (log x) else if x = 0 then .ninf else .nan

/-- Addition, as far as needed here. -/
noncomputable def Num.add : Num → Num → Num
  | .nan, _ => .nan
  | _, .nan => .nan
  | .ninf, _ => .ninf
  | _, .ninf => .ninf
  | .val a, .val b => .val (a + b)

/-- `apop_coordinate_transform_settings`, apop.m4.h:1620-1624; a base model is here its log likelihood. `Δ` is the type of data sets. -/
structure Settings (Δ : Type) where
  toBase : Option (Δ → Δ)
  jac : Option (Δ → ℝ)
  base : Option (Δ → Num)

/-- `ct_ll`, transform/apop_coordinate_transform.c:36-48, after `Get_cs` (lines 21-24). -/
noncomputable def ctLl {Δ : Type} (cs : Option (Settings Δ)) (d : Δ) : Num :=
  match cs with
  | none => .nan
  | some s =>
    match s.base, s.toBase, s.jac with
    | some ll, some rev, some j => (ll (rev d)).add (clog (j d))
    | _, _, _ => .nan

/-! ### Specification -/

/-- A function applied to every number of a data set, as `apop_map(in, .fn_d=g, .part='a')` does. -/
def mapD (g : ℝ → ℝ) (d : D) : D := ⟨d.vec.map (List.map g), d.mat.map fun m => ⟨m.rows.map (List.map g), m.cols⟩⟩

/-- A base model of independent observations with density `p`, where no observation is outside its support. -/
noncomputable def iid (p : ℝ → ℝ) (d : D) : Num := .val (log (likelihood p d))

theorem cells_mapD (g : ℝ → ℝ) (d : D) : (mapD g d).cells = d.cells.map g := by
  unfold mapD D.cells
  cases d.vec <;> cases d.mat <;> simp [List.map_flatten]

/-! ### C144 -/

/-- C144: with all three parts given and a positive Jacobian, the log likelihood is the base model's at the data taken back, plus the log of the Jacobian; a zero Jacobian gives minus infinity. -/
theorem C144_ll {Δ : Type} (ll : Δ → Num) (rev : Δ → Δ) (j : Δ → ℝ) (d : Δ) (b : ℝ) (hb : ll (rev d) = .val b) :
    (0 < j d → ctLl (some ⟨some rev, some j, some ll⟩) d = .val (b + log (j d))) ∧
    (j d = 0 → ctLl (some ⟨some rev, some j, some ll⟩) d = .ninf) := by
  constructor
  · intro h; simp only [ctLl, hb, clog, if_pos h, Num.add]
  · intro h; simp only [ctLl, hb, clog, h, lt_irrefl, if_false, if_true, Num.add]

/-- C144: a missing group, or a missing part of it, gives NaN. -/
theorem C144_missing {Δ : Type} (cs : Option (Settings Δ)) (d : Δ) (h : ∀ s, cs = some s → s.base = none ∨ s.toBase = none ∨ s.jac = none) : ctLl cs d = .nan := by
  unfold ctLl
  match cs, h with
  | none, _ => rfl
  | some ⟨a, b, c⟩, h =>
    have := h _ rfl
    cases a <;> cases b <;> cases c <;> simp_all

/-- C144: for a base model of independent observations, given the product of the derivatives as the Jacobian, the log likelihood is that of independent observations of the transformed density. -/
theorem C144_independent (p g g' : ℝ → ℝ) (d : D) (hp : ∀ x ∈ d.cells, 0 < p (g x)) (hg : ∀ x ∈ d.cells, g' x ≠ 0) :
    ctLl (some ⟨some (mapD g), some fun d => |(d.cells.map g').prod|, some (iid p)⟩) d = .val (log (likelihood (fun x => p (g x) * |g' x|) d)) := by
  have hpos : 0 < |(d.cells.map g').prod| := by
    rw [abs_pos]
    apply List.prod_ne_zero
    intro h
    obtain ⟨x, hx, h0⟩ := List.mem_map.mp h
    exact hg x hx h0
  rw [(C144_ll (iid p) (mapD g) _ d (log (likelihood p (mapD g d))) rfl).1 hpos]
  congr 1
  unfold likelihood
  rw [cells_mapD, List.map_map]
  have key : ∀ l : List ℝ, (∀ x ∈ l, 0 < p (g x)) → (∀ x ∈ l, g' x ≠ 0) →
      log ((l.map (p ∘ g)).prod) + log |(l.map g').prod| = log ((l.map fun x => p (g x) * |g' x|).prod) := by
    intro l h1 h2
    have e : (l.map fun x => p (g x) * |g' x|).prod = (l.map (p ∘ g)).prod * |(l.map g').prod| := by
      clear h1 h2
      induction l with
      | nil => simp
      | cons x l ih => simp only [List.map_cons, List.prod_cons, ih, abs_mul, Function.comp]; ring
    rw [e, log_mul]
    · apply List.prod_ne_zero
      intro h
      obtain ⟨x, hx, h0⟩ := List.mem_map.mp h
      exact (h1 x hx).ne' h0
    · rw [abs_ne_zero]
      apply List.prod_ne_zero
      intro h
      obtain ⟨x, hx, h0⟩ := List.mem_map.mp h
      exact h2 x hx h0
  exact key d.cells hp hg

/-- C144: and that transformed density gives each set of values the probability the base model gives its image. -/
theorem C144_density (p g g' : ℝ → ℝ) (s : Set ℝ) (hs : MeasurableSet s) (hd : ∀ x ∈ s, HasDerivWithinAt g (g' x) s x) (hi : Set.InjOn g s) :
    ∫ x in s, p (g x) * |g' x| = ∫ y in g '' s, p y := by
  rw [integral_image_eq_integral_abs_deriv_smul hs hd hi]
  congr 1
  funext x
  rw [smul_eq_mul, mul_comm]

/-- C144: taking the log back to a Normal gives the lognormal. -/
theorem C144_lognormal (mu sd : ℝ) (hsd : 0 < sd) (d : D) (hw : d.WF) (hx : ∀ x ∈ d.cells, 0 < x) :
    ctLl (some ⟨some (mapD log), some fun d => |(d.cells.map fun x => 1 / x).prod|, some (iid (ProbabilityTheory.gaussianPDFReal mu (sd ^ 2).toNNReal))⟩) d =
      .val (lognormalLl mu sd d) := by
  rw [C144_independent _ log (fun x => 1 / x) d (fun x _ => ProbabilityTheory.gaussianPDFReal_pos _ _ _ (by simp [hsd.ne'])) (fun x h => by have := hx x h; positivity), C74_lognormal mu sd hsd d hw hx]
  congr 2
  unfold likelihood
  congr 1
  apply List.map_congr_left
  intro x h
  have h0 := hx x h
  rw [ProbabilityTheory.gaussianPDFReal_def]
  simp only
  rw [coe_toNNReal _ (by positivity : (0 : ℝ) ≤ sd ^ 2), lognormalPdf, sqrt_mul (x := 2 * π) (by positivity) (sd ^ 2), sqrt_sq hsd.le, abs_of_pos (by positivity)]
  have : 0 < √(2 * π) := by positivity
  field_simp

/-- C144 (refuted): that the documentation's example (eg/jacobian.c) gives the lognormal's likelihood: its Jacobian is the sum, not the product, of the derivatives. -/
theorem C144_example_refuted : ∃ d : D, d.WF ∧ (∀ x ∈ d.cells, 0 < x) ∧
    ctLl (some ⟨some (mapD log), some fun d => |d.mapSum fun x => 1 / x|, some (iid (ProbabilityTheory.gaussianPDFReal 0 ((1 : ℝ) ^ 2).toNNReal))⟩) d ≠ .val (lognormalLl 0 1 d) := by
  refine ⟨⟨some [1, 1], none⟩, by intro m h; simp at h, by simp [D.cells], ?_⟩
  rw [← C144_lognormal 0 1 one_pos _ (by intro m h; simp at h) (by simp [D.cells])]
  rw [(C144_ll (iid _) _ _ _ _ rfl).1 (by simp [D.mapSum, vectorSum_eq]), (C144_ll (iid _) _ _ _ _ rfl).1 (by simp [D.cells])]
  intro h
  have := Num.val.inj h
  simp only [add_right_inj] at this
  simp [D.mapSum, vectorSum_eq, D.cells] at this
  have e : (1 : ℝ) + 1 = 2 := by norm_num
  rw [e] at this
  have := log_pos (show (1 : ℝ) < 2 by norm_num)
  linarith

/-- C144 (refuted): that a decreasing transformation may be given by its derivative (apop.m4.h:1622): a negative Jacobian makes the likelihood NaN. -/
theorem C144_decreasing_refuted (ll : ℝ → Num) (rev : ℝ → ℝ) (j : ℝ → ℝ) (d : ℝ) (b : ℝ) (hb : ll (rev d) = .val b) (hj : j d < 0) :
    ctLl (some ⟨some rev, some j, some ll⟩) d = .nan := by
  simp only [ctLl, hb, clog, if_neg (not_lt.mpr hj.le), if_neg hj.ne, Num.add]

example : ctLl (some ⟨some fun x => -x, some fun _ => -1, some fun x => .val x⟩) (3 : ℝ) = .nan := C144_decreasing_refuted _ _ _ 3 (-3) rfl (by norm_num)

/-! ### C145: whose parameters -/

/-- Memory: blocks of parameters, and the parameter pointer of the one base model all copies of a transform share (the settings group is copied as bytes, transform/apop_coordinate_transform.c:18). -/
structure St where
  next : ℕ
  mem : ℕ → Option (List ℝ)
  base : Option ℕ

/-- `apop_data_alloc` of `n` numbers (zeros stand for whatever is there). -/
def St.alloc (s : St) (v : List ℝ) : St × ℕ := (⟨s.next + 1, Function.update s.mem s.next (some v), s.base⟩, s.next)

/-- `apop_prep(d, cs->base_model)` for a base model without a prep of its own: `apop_model_clear`, apop_model.m4.c:32-33. -/
def St.prepBase (s : St) (k : ℕ) : St :=
  match s.base with
  | some _ => s
  | none => let r := s.alloc (List.replicate k 0); { r.1 with base := some r.2 }

/-- `jacobian_prep`, transform/apop_coordinate_transform.c:26-33: the model's own parameter pointer becomes the base model's. Without settings the error is noted and the missing group used all the same. -/
def prep (hasSettings : Bool) (k : ℕ) (s : St) : Res (St × Option ℕ) := if hasSettings then .ok (s.prepBase k, (s.prepBase k).base) else .ub

/-- `apop_model_copy`, apop_model.m4.c:155-178: new parameters of the same values. -/
def copy (s : St) (m : Option ℕ) : St × Option ℕ :=
  match m with
  | none => (s, none)
  | some p => ((s.alloc ((s.mem p).getD [])).1, some (s.alloc ((s.mem p).getD [])).2)

/-- Writing a model's parameters. -/
def setParams (s : St) (m : Option ℕ) (v : List ℝ) : Res St :=
  match m with
  | none => .ub
  | some p => match s.mem p with
    | none => .ub
    | some _ => .ok { s with mem := Function.update s.mem p (some v) }

/-- Reading them. -/
def getParams (s : St) (m : Option ℕ) : Res (List ℝ) :=
  match m with
  | none => .ub
  | some p => match s.mem p with
    | none => .ub
    | some v => .ok v

/-- The parameters `ct_ll` evaluates with: the base model's, transform/apop_coordinate_transform.c:44. -/
def llParams (s : St) : Res (List ℝ) := getParams s s.base

/-- `apop_data_free(free_me->parameters)` in `apop_model_free`, apop_model.m4.c:57. -/
def free (s : St) (m : Option ℕ) : Res St :=
  match m with
  | none => .ok s
  | some p => match s.mem p with
    | none => .ub
    | some _ => .ok { s with mem := Function.update s.mem p none }

/-- The base model's parameters, if any, are in memory, and memory beyond `next` is unused. -/
def St.WF (s : St) : Prop := (∀ p, s.base = some p → s.mem p ≠ none) ∧ ∀ p, s.next ≤ p → s.mem p = none

theorem prep_spec (k : ℕ) (s : St) (h : s.WF) : ∃ s' p v, prep true k s = .ok (s', some p) ∧ s'.base = some p ∧ s'.mem p = some v ∧ s'.WF := by
  unfold prep St.prepBase
  simp only [if_true]
  cases hb : s.base with
  | some p =>
    obtain ⟨v, hv⟩ := Option.ne_none_iff_exists'.mp (h.1 p hb)
    exact ⟨s, p, v, by simp [hb], hb, hv, h⟩
  | none =>
    refine ⟨_, _, _, rfl, rfl, by simp [St.alloc]; rfl, ?_, ?_⟩
    · intro p hp
      simp [St.alloc] at hp ⊢
      simp [← hp]
    · intro p hp
      simp [St.alloc] at hp ⊢
      rw [Function.update_of_ne (by omega)]
      exact h.2 p (by omega)

/-- C145: after the preparation, what is written into the model's parameters is what the likelihood is evaluated with. -/
theorem C145_parameters (k : ℕ) (s : St) (h : s.WF) (v : List ℝ) :
    ∃ s1 m s2, prep true k s = .ok (s1, m) ∧ setParams s1 m v = .ok s2 ∧ llParams s2 = .ok v ∧ getParams s2 m = .ok v := by
  obtain ⟨s1, p, w, h1, h2, h3, -⟩ := prep_spec k s h
  refine ⟨s1, some p, { s1 with mem := Function.update s1.mem p (some v) }, h1, by simp [setParams, h3], ?_, ?_⟩
  · simp [llParams, getParams, h2]
  · simp [getParams]

/-- C145 (refuted): that a copy of a prepared transform has parameters of its own to be evaluated with: setting the copy's parameters has no effect on its likelihood. -/
theorem C145_copy_refuted (k : ℕ) (s : St) (h : s.WF) (v w : List ℝ) :
    ∃ s1 m s2 s3 c s4, prep true k s = .ok (s1, m) ∧ setParams s1 m v = .ok s2 ∧ copy s2 m = (s3, c) ∧ setParams s3 c w = .ok s4 ∧
      getParams s4 c = .ok w ∧ llParams s4 = .ok v := by
  obtain ⟨s1, p, u, h1, h2, h3, hw⟩ := prep_spec k s h
  have hp : p < s1.next := by
    by_contra hc
    rw [hw.2 p (by omega)] at h3
    cases h3
  have e : copy { s1 with mem := Function.update s1.mem p (some v) } (some p) =
      (⟨s1.next + 1, Function.update (Function.update s1.mem p (some v)) s1.next (some v), s1.base⟩, some s1.next) := by
    simp [copy, St.alloc]
  refine ⟨s1, some p, { s1 with mem := Function.update s1.mem p (some v) }, _, _,
    ⟨s1.next + 1, Function.update (Function.update (Function.update s1.mem p (some v)) s1.next (some v)) s1.next (some w), s1.base⟩, h1, by simp [setParams, h3], e, ?_, ?_, ?_⟩
  · simp [setParams]
  · simp [getParams]
  · simp only [llParams, getParams, h2]
    rw [Function.update_of_ne (by omega), Function.update_of_ne (by omega)]
    simp

/-- C145 (refuted): that two estimates made from one transform are independent: the second writes over the first, and freeing both frees the same block twice. -/
theorem C145_two_estimates_refuted (k : ℕ) (s : St) (h : s.WF) (v w : List ℝ) :
    ∃ s1 m1 s2 s3 m2 s4 s5, prep true k s = .ok (s1, m1) ∧ setParams s1 m1 v = .ok s2 ∧ prep true k s2 = .ok (s3, m2) ∧ setParams s3 m2 w = .ok s4 ∧
      getParams s4 m1 = .ok w ∧ free s4 m1 = .ok s5 ∧ free s5 m2 = .ub := by
  obtain ⟨s1, p, u, h1, h2, h3, hw⟩ := prep_spec k s h
  refine ⟨s1, some p, { s1 with mem := Function.update s1.mem p (some v) }, { s1 with mem := Function.update s1.mem p (some v) }, some p,
    { s1 with mem := Function.update (Function.update s1.mem p (some v)) p (some w) },
    { s1 with mem := Function.update (Function.update (Function.update s1.mem p (some v)) p (some w)) p none }, h1, by simp [setParams, h3], ?_, ?_, ?_, ?_, ?_⟩
  · simp [prep, St.prepBase, h2]
  · simp [setParams]
  · simp [getParams]
  · simp [free]
  · simp [free]

/-- C145 (refuted): that a transform without its settings is marked with error 's' and left alone: it goes on to use the missing group. -/
theorem C145_no_settings_refuted (k : ℕ) (s : St) : prep false k s = .ub := rfl

example : (⟨0, fun _ => none, none⟩ : St).WF := ⟨by simp, by simp⟩

end Apop.Transform.Coord
