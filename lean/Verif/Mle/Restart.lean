import Verif.Base.C
import Mathlib.Data.EReal.Operations
import Mathlib.Tactic.Linarith

/-! # C126: `apop_estimate_restart` (apop_mle.m4.c:708-752) -/

namespace Apop.Mle.Restart

open Apop

/-- A double, exact: `none` is NaN. -/
abbrev V := Option EReal

/-- `a > b` in C: false when either is NaN. -/
noncomputable def gt (a b : V) : Bool :=
  match a, b with
  | some x, some y => decide (y < x)
  | _, _ => false

/-- `gsl_finite`, and within the bound: the test in `apop_vector_bounded`, apop_linear_algebra.m4.c:313-317. -/
noncomputable def within (max : ℝ) (x : V) : Bool :=
  match x with
  | none => false
  | some y => decide (y ≠ ⊤ ∧ y ≠ ⊥ ∧ ¬ y > (max : EReal) ∧ ¬ y < ((-max : ℝ) : EReal))

/-- `apop_vector_bounded`, apop_linear_algebra.m4.c:308-319: a NULL vector is bounded. -/
noncomputable def bounded (v : Option (List V)) (max : ℝ) : Bool :=
  match v with
  | none => true
  | some l => l.all (within max)

/-- A model, as far as restarts go: the vector and matrix parts of its parameters (`none`: not allocated), its MLE
settings group if any, with the `starting_pt` in it, and the log likelihood (from its info page, or recalculated;
`get_ll`, apop_mle.m4.c:529-535). -/
structure M where
  params : Option (Option (List V) × Option (List V))
  mle : Option (Option (List V))
  ll : V

/-- The model's parameters, packed (C21): vector, then matrix; NULL when there is nothing. -/
def pack : Option (Option (List V) × Option (List V)) → Option (List V)
  | none => none
  | some (v, m) => if (v.getD [] ++ m.getD []).length = 0 then none else some (v.getD [] ++ m.getD [])

/-- Which starting point is asked for. -/
inductive From | ep | es | np | ns
  deriving DecidableEq

/-- Which of the models involved. -/
inductive Who | old | copy | new
  deriving DecidableEq

/-- The outcome: the model returned, which it is, the ones freed, and the old model's settings. -/
structure Out where
  ret : M
  who : Who
  freed : List Who
  oldMle : Option (Option (List V))

/-- The vector checked for divergence, the copy's starting point, and the old model's settings: apop_mle.m4.c:716-737.
`es`, `ns`: the size of the array is taken as `sizeof` of the pointer over `sizeof(double)`, so 1. -/
def prepare (e copy : M) : From → Res (Option (List V) × M × Option (Option (List V)))
  | .es =>
    match e.mle with
    | none => .ub
    | some none => .ok (none, copy, e.mle)
    | some (some a) => if a.length < 1 then .ub else .ok (some (a.take 1), copy, e.mle)
  | .ns =>
    match copy.mle, e.mle with
    | some (some a), some _ => if a.length < 1 then .ub else .ok (some (a.take 1), copy, some (some (a.take 1)))
    | _, _ => .ub
  | .np =>
    match pack copy.params, copy.mle with
    | some v, some _ => .ok (some v, { copy with mle := some (some v) }, e.mle)
    | _, _ => .ub
  | .ep =>
    match e.params with
    | none => .ok (none, copy, e.mle)
    | some _ =>
      match pack e.params, copy.mle with
      | some v, some _ => .ok (some v, { copy with mle := some (some v) }, e.mle)
      | _, _ => .ub

/-- After the re-estimation: apop_mle.m4.c:742-751. -/
noncomputable def decideBest (e new : M) (boundary : ℝ) (oldMle : Option (Option (List V))) : Res Out :=
  match new.params with
  | none => .ub
  | some p =>
    if bounded p.1 boundary && gt new.ll e.ll then .ok ⟨new, .new, [.copy, .old], oldMle⟩
    else .ok ⟨e, .old, [.copy, .new], oldMle⟩

/-- `apop_estimate_restart`, apop_mle.m4.c:708-752. `given`: the `copy` argument (default: a copy of `e`);
`est`: `apop_estimate` with `e`'s data. -/
noncomputable def restart (est : M → M) (e : M) (given : Option M) (f : From) (boundary : ℝ) : Res Out :=
  (prepare e (given.getD e) f).bind fun r =>
    if bounded r.1 boundary then decideBest e (est r.2.1) boundary r.2.2
    else .ok ⟨e, .old, [], r.2.2⟩

/-! ## Specification -/

/-- A list of finite numbers no larger than the bound. -/
def Sane (l : List V) (boundary : ℝ) : Prop := ∀ x ∈ l, ∃ r : ℝ, x = some (r : EReal) ∧ |r| ≤ boundary

/-- `a` is a number larger than the number `b`. -/
def Larger (a b : V) : Prop := ∃ x y : EReal, a = some x ∧ b = some y ∧ y < x

theorem within_iff (max : ℝ) (x : V) : within max x = true ↔ ∃ r : ℝ, x = some (r : EReal) ∧ |r| ≤ max := by
  unfold within
  cases x with
  | none => simp
  | some y =>
    induction y using EReal.rec with
    | bot => simp
    | top => simp
    | coe r =>
      simp [abs_le, EReal.coe_le_coe_iff]
      rw [← EReal.coe_neg, EReal.coe_le_coe_iff]
      tauto

theorem bounded_iff (l : List V) (max : ℝ) : bounded (some l) max = true ↔ Sane l max := by
  simp only [bounded, List.all_eq_true, within_iff, Sane]

theorem gt_iff (a b : V) : gt a b = true ↔ Larger a b := by
  unfold gt Larger
  cases a <;> cases b <;> simp

/-- C126. A default restart ("ep") of an estimate with MLE settings and sane parameters re-estimates a copy from
those parameters, and returns the new estimate if its parameter vector is sane and its log likelihood larger, and the
old one otherwise. The loser and the copy are freed, the model returned isn't. -/
theorem C126_restart (est : M → M) (e : M) (given : Option M) (boundary : ℝ) (v : List V)
    (hp : e.params.isSome) (hv : pack e.params = some v) (hs : Sane v boundary) (hm : (given.getD e).mle.isSome)
    (new : M) (hnew : est { given.getD e with mle := some (some v) } = new) (nv nm : Option (List V)) (hn : new.params = some (nv, nm)) :
    ∃ r, restart est e given .ep boundary = .ok r ∧
      ((∀ l, nv = some l → Sane l boundary) ∧ Larger new.ll e.ll → r.ret = new ∧ r.who = .new ∧ r.freed = [.copy, .old]) ∧
      (¬ ((∀ l, nv = some l → Sane l boundary) ∧ Larger new.ll e.ll) → r.ret = e ∧ r.who = .old ∧ r.freed = [.copy, .new]) ∧
      r.who ∉ r.freed ∧ r.oldMle = e.mle := by
  obtain ⟨p, hp'⟩ := Option.isSome_iff_exists.1 hp
  obtain ⟨s, hs'⟩ := Option.isSome_iff_exists.1 hm
  have hprep : prepare e (given.getD e) .ep = .ok (some v, { given.getD e with mle := some (some v) }, e.mle) := by
    rw [prepare, hv, hs', hp']
  have hb : bounded nv boundary = true ↔ ∀ l, nv = some l → Sane l boundary := by
    cases nv with
    | none => simp [bounded]
    | some l => simp [bounded_iff]
  unfold restart
  rw [hprep]
  simp only [Res.bind, (bounded_iff v boundary).2 hs, if_true, hnew, decideBest, hn]
  by_cases hc : (∀ l, nv = some l → Sane l boundary) ∧ Larger new.ll e.ll
  · have : (bounded nv boundary && gt new.ll e.ll) = true := by
      rw [Bool.and_eq_true, hb, gt_iff]; exact hc
    rw [if_pos this]
    exact ⟨_, rfl, fun _ => ⟨rfl, rfl, rfl⟩, fun h => absurd hc h, by simp, rfl⟩
  · have : ¬ (bounded nv boundary && gt new.ll e.ll) = true := by
      rw [Bool.and_eq_true, hb, gt_iff]; exact hc
    rw [if_neg this]
    exact ⟨_, rfl, fun h => absurd h hc, fun _ => ⟨rfl, rfl, rfl⟩, by simp, rfl⟩

/-- C126. A diverged estimate (a parameter infinite, NaN or beyond the bound) is returned as it is. -/
theorem C126_diverged (est : M → M) (e : M) (given : Option M) (boundary : ℝ) (v : List V)
    (hp : e.params.isSome) (hv : pack e.params = some v) (hs : ¬ Sane v boundary) (hm : (given.getD e).mle.isSome) :
    restart est e given .ep boundary = .ok ⟨e, .old, [], e.mle⟩ := by
  obtain ⟨p, hp'⟩ := Option.isSome_iff_exists.1 hp
  obtain ⟨s, hs'⟩ := Option.isSome_iff_exists.1 hm
  have hprep : prepare e (given.getD e) .ep = .ok (some v, { given.getD e with mle := some (some v) }, e.mle) := by
    rw [prepare, hv, hs', hp']
  have : ¬ bounded (some v) boundary = true := fun h => hs ((bounded_iff _ _).1 h)
  unfold restart
  rw [hprep]
  simp [Res.bind, this]

/-- Whatever is asked for: the model returned is the old one or one with a larger log likelihood. -/
theorem restart_mono (est : M → M) (e : M) (given : Option M) (f : From) (boundary : ℝ) (r : Out)
    (h : restart est e given f boundary = .ok r) : r.ret = e ∨ Larger r.ret.ll e.ll := by
  unfold restart at h
  cases hpre : prepare e (given.getD e) f with
  | ub => rw [hpre] at h; simp [Res.bind] at h
  | ok q =>
    rw [hpre] at h
    simp only [Res.bind] at h
    split at h
    · unfold decideBest at h
      split at h
      · simp at h
      · split at h
        · rename_i hc
          rw [Bool.and_eq_true, gt_iff] at hc
          injection h with h
          subst h
          exact Or.inr hc.2
        · injection h with h
          subst h
          exact Or.inl rfl
    · injection h with h
      subst h
      exact Or.inl rfl

/-- `for (i=0; i<k; i++) m = apop_estimate_restart(m)`, each round with its own estimation, model, starting point and bound. -/
noncomputable def rounds : List ((M → M) × Option M × From × ℝ) → M → Res M
  | [], m => .ok m
  | (est, g, f, b) :: rs, m => (restart est m g f b).bind fun r => rounds rs r.ret

/-- C126. Over any number of restarts of any kind, the log likelihood never gets worse. -/
theorem C126_never_worse (rs : List ((M → M) × Option M × From × ℝ)) (e r : M) (h : rounds rs e = .ok r) :
    r = e ∨ Larger r.ll e.ll := by
  induction rs generalizing e with
  | nil => simp [rounds] at h; exact Or.inl h.symm
  | cons x xs ih =>
    obtain ⟨est, g, f, b⟩ := x
    rw [rounds] at h
    cases hr : restart est e g f b with
    | ub => rw [hr] at h; simp [Res.bind] at h
    | ok q =>
      rw [hr] at h
      simp only [Res.bind] at h
      rcases ih q.ret h with h1 | h1
      · rcases restart_mono est e g f b q hr with h2 | h2
        · exact Or.inl (h1.trans h2)
        · exact Or.inr (by rw [h1]; exact h2)
      · rcases restart_mono est e g f b q hr with h2 | h2
        · exact Or.inr (by rw [← h2]; exact h1)
        · obtain ⟨a, c, ha, hc, hac⟩ := h1
          obtain ⟨a', c', ha', hc', hac'⟩ := h2
          refine Or.inr ⟨a, c', ha, hc', ?_⟩
          rw [hc] at ha'
          exact hac'.trans (Option.some.inj ha' ▸ hac)

/-- C126 (refutation). Only the vector part of the new parameters is checked: with a matrix of parameters, a new
estimate holding a NaN replaces a good old one. -/
theorem C126_matrix_nan_refuted :
    ∃ (est : M → M) (e : M), e.params = some (none, some [some 1, some 2]) ∧ (∃ r, restart est e none .ep 100000000 = .ok r ∧
      r.ret.params = some (none, some [none, none])) := by
  refine ⟨fun m => { m with params := some (none, some [none, none]), ll := some 1 }, ⟨some (none, some [some 1, some 2]), some none, some 0⟩, rfl, ?_⟩
  obtain ⟨r, h1, h2, _⟩ := C126_restart (fun m => { m with params := some (none, some [none, none]), ll := some 1 })
    ⟨some (none, some [some 1, some 2]), some none, some 0⟩ none 100000000 [some 1, some 2] rfl (by simp [pack])
    (by
      intro x hx
      simp at hx
      rcases hx with rfl | rfl
      · exact ⟨1, by simp, by norm_num⟩
      · exact ⟨2, by simp; norm_cast, by norm_num⟩) rfl
    ⟨some (none, some [none, none]), some (some [some 1, some 2]), some 1⟩ rfl none (some [none, none]) rfl
  exact ⟨r, h1, by rw [(h2 ⟨by simp, 1, 0, rfl, rfl, by norm_num⟩).1]⟩

/-- C126 (refutation). With "es" and a second model, the second model is estimated from its own starting point, not
from the first model's. -/
theorem C126_es_ignored_refuted (est : M → M) (e copy : M) (boundary : ℝ) (a b : List V) (x : V)
    (h1 : e.mle = some (some (x :: a))) (h2 : copy.mle = some (some b)) (hx : Sane [x] boundary) :
    restart est e (some copy) .es boundary = decideBest e (est copy) boundary e.mle ∧ copy.mle = some (some b) := by
  refine ⟨?_, h2⟩
  have : prepare e copy .es = .ok (some [x], copy, e.mle) := by simp [prepare, h1]
  have hb : bounded (some [x]) boundary = true := (bounded_iff _ _).2 hx
  unfold restart
  simp only [Option.getD_some, this, Res.bind, hb, if_true]

/-- C126 (refutation). "ns" overwrites the old model's starting point with the first element of the new one's; a
later search of two or more parameters from it reads past its end (C125). -/
theorem C126_ns_truncates_refuted (est : M → M) (e copy : M) (boundary : ℝ) (a : List V) (x : V) (s : Option (List V))
    (h1 : e.mle = some s) (h2 : copy.mle = some (some (x :: a))) (r : Out)
    (h : restart est e (some copy) .ns boundary = .ok r) : r.oldMle = some (some [x]) := by
  have : prepare e copy .ns = .ok (some [x], copy, some (some [x])) := by simp [prepare, h1, h2]
  unfold restart at h
  simp only [Option.getD_some, this, Res.bind] at h
  split at h
  · unfold decideBest at h
    split at h
    · simp at h
    · split at h <;> (injection h with h; subst h; rfl)
  · injection h with h
    subst h
    rfl

/-- Nonvacuity: an estimate of one parameter at 1 with log likelihood -3 is replaced by one at 2 with -1. -/
example : ∃ r, restart (fun m => { m with params := some (some [some 2], none), ll := some ((-1 : ℝ) : EReal) }) ⟨some (some [some 1], none), some none, some ((-3 : ℝ) : EReal)⟩ none .ep 10 = .ok r ∧ r.who = .new := by
  obtain ⟨r, h1, h2, _⟩ := C126_restart (fun m => { m with params := some (some [some 2], none), ll := some ((-1 : ℝ) : EReal) })
    ⟨some (some [some 1], none), some none, some ((-3 : ℝ) : EReal)⟩ none 10 [some 1] rfl (by simp [pack])
    (by intro x hx; simp at hx; exact ⟨1, by simp [hx], by norm_num⟩) rfl
    ⟨some (some [some 2], none), some (some [some 1]), some ((-1 : ℝ) : EReal)⟩ rfl (some [some 2]) none rfl
  refine ⟨r, h1, (h2 ⟨?_, _, _, rfl, rfl, ?_⟩).2.1⟩
  · rintro l hl x hx
    simp at hl; subst hl; simp at hx
    exact ⟨2, by rw [hx]; norm_cast, by norm_num⟩
  · exact EReal.coe_lt_coe_iff.2 (by norm_num)

end Apop.Mle.Restart
