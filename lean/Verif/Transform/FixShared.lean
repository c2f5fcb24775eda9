import Verif.Transform.FixParams

/-! # C207: fixed-parameter models share their base model

`apop_model_fix_params` keeps a pointer to the very model it was given (transform/apop_fix_params.c:235), and a copy of the fixed-parameter model keeps the same pointer (the settings are copied byte by byte, line 119). Here are histories of calls on any number of base models, fixed-parameter models and copies of them. -/

namespace Apop.Fix
variable {α : Type}

/-! ## The model -/

/-- A fixed-parameter model: its base model, its table of free parameters, and its own parameters (none before they are set). -/
structure Fixed (α : Type) where
  base : ℕ
  table : List Entry
  par : Option (List (Option α))

/-- The parameters of the base models (by address), and the fixed-parameter models. -/
structure Heap (α : Type) where
  bases : List (List (P α))
  fixed : List (Fixed α)

/-- The calls: `apop_model_fix_params`, `apop_model_copy` of a fixed-parameter model, setting its parameters (as an estimation does), an evaluation (`apop_log_likelihood`, `apop_p`, `apop_draw`), `apop_model_fix_params_get_base`, and looking at a base model's parameters. -/
inductive Op (α : Type) where
  | fix (b : ℕ)
  | copy (f : ℕ)
  | set (f : ℕ) (θ : List (Option α))
  | eval (f : ℕ)
  | getBase (f : ℕ)
  | look (b : ℕ)

/-- What is seen: nothing, parameters (shapes and elements), or a pointer to a base model. -/
inductive Seen (α : Type) where
  | nothing
  | params (shapes : List (Option ℕ × Option (ℕ × ℕ))) (elements : List (Option α))
  | pointer (b : ℕ)

/-- Parameters as seen. -/
def seenOf (ps : List (P α)) : Seen α := .params (ps.map shape) (cells ps)

/-- `apop_model_fix_params`, transform/apop_fix_params.c:232-278: with no free parameters a copy of the input model, else a fixed-parameter model on the input model. Names, methods and the `apop_mle` settings (C129) are left out. -/
def fixParams (w : Heap α) (b : ℕ) : Res (Heap α) := do
  let ps ← rd w.bases b
  if (tablePrep ps 0).isEmpty then .ok { w with bases := w.bases ++ [ps] }
  else .ok { w with fixed := w.fixed ++ [⟨b, tablePrep ps 0, none⟩] }

/-- The settings copied as they are, transform/apop_fix_params.c:119, the parameters as a new data set (`apop_model_copy`). -/
def copyFixed (w : Heap α) (f : ℕ) : Res (Heap α) := do
  let m ← rd w.fixed f
  .ok { w with fixed := w.fixed ++ [m] }

/-- New parameters for a fixed-parameter model. -/
def setPar (w : Heap α) (f : ℕ) (θ : List (Option α)) : Res (Heap α) := do
  let m ← rd w.fixed f
  let fs ← wr w.fixed f { m with par := some θ }
  .ok { w with fixed := fs }

/-- The beginning of `fix_params_ll`, `fix_params_p`, `fix_params_draw` and `apop_model_fix_params_get_base`, transform/apop_fix_params.c:123-124, 129-130, 143-144, 275-276: the base model's parameters are written. -/
def unpackInto (w : Heap α) (f : ℕ) : Res (ℕ × List (P α) × Heap α) := do
  let m ← rd w.fixed f
  let ps ← rd w.bases m.base
  match m.par with
  | none => .ub
  | some θ =>
    let qs ← unpack m.table θ ps
    let bs ← wr w.bases m.base qs
    .ok (m.base, qs, { w with bases := bs })

/-- A call. -/
def call (w : Heap α) : Op α → Res (Heap α × Seen α)
  | .fix b => do
    let w ← fixParams w b
    .ok (w, .nothing)
  | .copy f => do
    let w ← copyFixed w f
    .ok (w, .nothing)
  | .set f θ => do
    let w ← setPar w f θ
    .ok (w, .nothing)
  | .eval f => do
    let (_, qs, w) ← unpackInto w f
    .ok (w, seenOf qs)
  | .getBase f => do
    let (b, _, w) ← unpackInto w f
    .ok (w, .pointer b)
  | .look b => do
    let ps ← rd w.bases b
    .ok (w, seenOf ps)

/-- A history of calls. -/
def calls : Heap α → List (Op α) → Res (Heap α × List (Seen α))
  | w, [] => .ok (w, [])
  | w, o :: os => do
    let (w, s) ← call w o
    let (w, l) ← calls w os
    .ok (w, s :: l)

/-! ## Specification -/

/-- What a user has in mind: for every base model the parameters given; for every fixed-parameter model its base and its own parameters; and for every base model the parameters last put into it, if any. -/
structure Spec (α : Type) where
  given : List (List (P α))
  models : List (ℕ × Option (List (Option α)))
  last : List (Option (List (Option α)))

/-- The parameters given, with the NaNs replaced in order. -/
def filled (ps : List (P α)) : Option (List (Option α)) → Seen α
  | none => seenOf ps
  | some θ => .params (ps.map shape) (fillGaps (cells ps) θ)

/-- The calls allowed: things must be there, parameters be as many as the free ones and set before an evaluation, and no base model is fixed twice. -/
def Allowed (s : Spec α) : Op α → Prop
  | .fix b => b < s.given.length ∧ ∀ m ∈ s.models, m.1 ≠ b
  | .copy f => f < s.models.length
  | .set f θ => ∃ b p ps, s.models[f]? = some (b, p) ∧ s.given[b]? = some ps ∧ θ.length = gaps (cells ps)
  | .eval f => ∃ b θ, s.models[f]? = some (b, some θ)
  | .getBase f => ∃ b θ, s.models[f]? = some (b, some θ)
  | .look b => b < s.given.length

/-- What is seen. -/
def Expect (s : Spec α) : Op α → Seen α → Prop
  | .fix _, x => x = .nothing
  | .copy _, x => x = .nothing
  | .set _ _, x => x = .nothing
  | .eval f, x => ∀ b θ ps, s.models[f]? = some (b, some θ) → s.given[b]? = some ps → x = filled ps (some θ)
  | .getBase f, x => ∀ b p, s.models[f]? = some (b, p) → x = .pointer b
  | .look b, x => ∀ ps p, s.given[b]? = some ps → s.last[b]? = some p → x = filled ps p

/-- The base of a fixed-parameter model now holds its parameters. -/
def Spec.put (s : Spec α) (f : ℕ) : Spec α :=
  match s.models[f]? with
  | some (b, p) => { s with last := s.last.set b p }
  | none => s

/-- What changes. -/
def Spec.next (s : Spec α) : Op α → Spec α
  | .fix b => match s.given[b]? with
    | some ps => if gaps (cells ps) = 0 then { s with given := s.given ++ [ps], last := s.last ++ [none] } else { s with models := s.models ++ [(b, none)] }
    | none => s
  | .copy f => { s with models := s.models ++ s.models[f]?.toList }
  | .set f θ => { s with models := s.models.modify f fun m => (m.1, some θ) }
  | .eval f => s.put f
  | .getBase f => s.put f
  | .look _ => s

/-- A history in which all calls are allowed and what is seen is as expected. -/
inductive Hist : Spec α → List (Op α) → List (Seen α) → Prop where
  | nil (s : Spec α) : Hist s [] []
  | cons (s : Spec α) (o : Op α) (os : List (Op α)) (x : Seen α) (l : List (Seen α)) : Expect s o x → Hist (s.next o) os l → Hist s (o :: os) (x :: l)

/-- All calls of a history are allowed. -/
def AllAllowed : Spec α → List (Op α) → Prop
  | _, [] => True
  | s, o :: os => Allowed s o ∧ AllAllowed (s.next o) os

/-- Before any call. -/
def Spec.start (given : List (List (P α))) : Spec α := ⟨given, [], given.map fun _ => none⟩

/-! ## Proofs -/

/-- The elements of a base model. -/
def holds (ps qs : List (P α)) : Option (List (Option α)) → Prop
  | none => qs = ps
  | some θ => WF qs ∧ qs.map shape = ps.map shape ∧ cells qs = fillGaps (cells ps) θ

/-- Heap and specification. -/
structure Inv (w : Heap α) (s : Spec α) : Prop where
  wf : ∀ ps ∈ s.given, WF ps
  len : s.last.length = s.given.length
  lenb : w.bases.length = s.given.length
  bases : ∀ (b : ℕ) (ps qs : List (P α)) (p : Option (List (Option α))), s.given[b]? = some ps → w.bases[b]? = some qs → s.last[b]? = some p → holds ps qs p
  fresh : ∀ b : ℕ, (∀ m ∈ s.models, m.1 ≠ b) → b < s.last.length → s.last[b]? = some none
  lenf : w.fixed.length = s.models.length
  fixed : ∀ (f b : ℕ) (p : Option (List (Option α))) (m : Fixed α), s.models[f]? = some (b, p) → w.fixed[f]? = some m →
    ∃ ps, s.given[b]? = some ps ∧ m = ⟨b, tablePrep ps 0, p⟩ ∧ ∀ θ, p = some θ → θ.length = gaps (cells ps)

theorem rd_get {β : Type} {l : List β} {i : ℕ} (h : i < l.length) : ∃ a, l[i]? = some a ∧ rd l i = .ok a :=
  ⟨l[i], List.getElem?_eq_getElem h, by simp [rd, h]⟩

theorem rd_some {β : Type} {l : List β} {i : ℕ} {a : β} (h : l[i]? = some a) : rd l i = .ok a := by
  obtain ⟨h', e⟩ := List.getElem?_eq_some_iff.1 h
  simp [rd, h', e]

theorem wr_some {β : Type} {l : List β} {i : ℕ} (h : i < l.length) (a : β) : wr l i a = .ok (l.set i a) := by
  simp [wr, h]

theorem holds_fill {ps qs : List (P α)} {p : Option (List (Option α))} (hw : WF ps) (h : holds ps qs p) (θ : List (Option α)) (hθ : θ.length = gaps (cells ps)) :
    ∃ rs, unpack (tablePrep ps 0) θ qs = .ok rs ∧ holds ps rs (some θ) := by
  have : WF qs ∧ qs.map shape = ps.map shape ∧ Agree (cells ps) (cells qs) := by
    cases p with
    | none => rw [show qs = ps from h]; exact ⟨hw, rfl, agree_refl _⟩
    | some t => exact ⟨h.1, h.2.1, by rw [h.2.2]; exact agree_fill _ _⟩
  obtain ⟨rs, a, b, c, d⟩ := C79_fill ps qs hw this.1 this.2.1 this.2.2 θ hθ
  exact ⟨rs, a, c, b, d⟩

theorem seen_holds {ps qs : List (P α)} {p : Option (List (Option α))} (h : holds ps qs p) : seenOf qs = filled ps p := by
  cases p with
  | none => rw [show qs = ps from h]; rfl
  | some t => simp only [seenOf, filled, h.2.1, h.2.2]

theorem unpack_step {w : Heap α} {s : Spec α} (hi : Inv w s) (f b : ℕ) (θ : List (Option α)) (h : s.models[f]? = some (b, some θ)) :
    ∃ ps qs, s.given[b]? = some ps ∧ unpackInto w f = .ok (b, qs, { w with bases := w.bases.set b qs }) ∧ holds ps qs (some θ) ∧ Inv { w with bases := w.bases.set b qs } (s.put f) := by
  have hf : f < w.fixed.length := by rw [hi.lenf]; exact (List.getElem?_eq_some_iff.1 h).1
  obtain ⟨m, hm, hrd⟩ := rd_get hf
  obtain ⟨ps, hps, rfl, hlen⟩ := hi.fixed f b (some θ) m h hm
  have hb : b < s.given.length := (List.getElem?_eq_some_iff.1 hps).1
  have hbw : b < w.bases.length := by rw [hi.lenb]; exact hb
  obtain ⟨qs, hqs, hrq⟩ := rd_get hbw
  have hbl : b < s.last.length := by rw [hi.len]; exact hb
  obtain ⟨p, hp, -⟩ := rd_get hbl
  obtain ⟨rs, hu, hh⟩ := holds_fill (hi.wf ps (List.mem_of_getElem? hps)) (hi.bases b ps qs p hps hqs hp) θ (hlen θ rfl)
  refine ⟨ps, rs, hps, ?_, hh, ?_⟩
  · simp only [unpackInto, hrd, hrq, hu, wr_some hbw, Res.bind_ok]
  · have hput : s.put f = { s with last := s.last.set b (some θ) } := by simp only [Spec.put, h]
    rw [hput]
    refine ⟨hi.wf, by simpa using hi.len, by simpa using hi.lenb, ?_, ?_, hi.lenf, hi.fixed⟩
    · intro b' ps' qs' p' h1 h2 h3
      by_cases e : b = b'
      · subst e
        rw [List.getElem?_set_self hbw] at h2
        rw [List.getElem?_set_self hbl] at h3
        cases h2; cases h3
        rw [hps] at h1; cases h1
        exact hh
      · rw [List.getElem?_set_ne e] at h2 h3
        exact hi.bases b' ps' qs' p' h1 h2 h3
    · intro b' hb' hl
      have e : b ≠ b' := hb' (b, some θ) (List.mem_of_getElem? h)
      show (s.last.set b (some θ))[b']? = _
      rw [List.getElem?_set_ne e]
      exact hi.fresh b' hb' (by simpa using hl)

theorem table_empty {ps : List (P α)} (hw : WF ps) : (tablePrep ps 0).isEmpty = true ↔ gaps (cells ps) = 0 := by
  rw [← table_length hw, List.isEmpty_iff, List.length_eq_zero_iff]

theorem call_ok {w : Heap α} {s : Spec α} (hi : Inv w s) (o : Op α) (ho : Allowed s o) : ∃ w' x, call w o = .ok (w', x) ∧ Expect s o x ∧ Inv w' (s.next o) := by
  cases o with
  | fix b =>
    obtain ⟨hb, hm⟩ := ho
    have hbw : b < w.bases.length := by rw [hi.lenb]; exact hb
    obtain ⟨qs, hqs, hrq⟩ := rd_get hbw
    obtain ⟨ps, hps, -⟩ := rd_get hb
    have hl := hi.fresh b hm (by rw [hi.len]; exact hb)
    have e : qs = ps := hi.bases b ps qs none hps hqs hl
    subst e
    have hw := hi.wf qs (List.mem_of_getElem? hps)
    by_cases hg : gaps (cells qs) = 0
    · have ht := (table_empty hw).2 hg
      refine ⟨{ w with bases := w.bases ++ [qs] }, .nothing, by simp only [call, fixParams, hrq, ht, Res.bind_ok, if_true], rfl, ?_⟩
      have : s.next (.fix b) = { s with given := s.given ++ [qs], last := s.last ++ [none] } := by simp only [Spec.next, hps, if_pos hg]
      rw [this]
      refine ⟨?_, by simp [hi.len], by simp [hi.lenb], ?_, ?_, hi.lenf, ?_⟩
      · intro ps hp
        rcases List.mem_append.1 hp with h | h
        · exact hi.wf ps h
        · rw [List.mem_singleton.1 h]; exact hw
      · intro b' ps' qs' p' h1 h2 h3
        by_cases hlt : b' < s.given.length
        · rw [List.getElem?_append_left hlt] at h1
          rw [List.getElem?_append_left (by rw [hi.lenb]; exact hlt)] at h2
          rw [List.getElem?_append_left (by rw [hi.len]; exact hlt)] at h3
          exact hi.bases b' ps' qs' p' h1 h2 h3
        · have hk := (List.getElem?_eq_some_iff.1 h1).1
          simp only [List.length_append, List.length_singleton] at hk
          have hb' : b' = s.given.length := by omega
          have hb2 : b' = w.bases.length := by rw [hi.lenb]; exact hb'
          have hb3 : b' = s.last.length := by rw [hi.len]; exact hb'
          have h1 : (s.given ++ [qs])[b']? = some ps' := h1
          have h2 : (w.bases ++ [qs])[b']? = some qs' := h2
          have h3 : (s.last ++ [none])[b']? = some p' := h3
          rw [List.getElem?_append_right hb'.ge, hb', Nat.sub_self] at h1
          rw [List.getElem?_append_right hb2.ge, hb2, Nat.sub_self] at h2
          rw [List.getElem?_append_right hb3.ge, hb3, Nat.sub_self] at h3
          cases h1; cases h2; cases h3
          rfl
      · intro b' hb' hlt
        show (s.last ++ [none])[b']? = _
        simp only [List.length_append, List.length_singleton] at hlt
        by_cases hl' : b' < s.last.length
        · rw [List.getElem?_append_left hl']; exact hi.fresh b' hb' hl'
        · have : b' = s.last.length := by omega
          rw [List.getElem?_append_right this.ge, this, Nat.sub_self]; rfl
      · intro f b' p m h1 h2
        obtain ⟨ps', h3, h4⟩ := hi.fixed f b' p m h1 h2
        refine ⟨ps', ?_, h4⟩
        show (s.given ++ [qs])[b']? = _
        rw [List.getElem?_append_left (List.getElem?_eq_some_iff.1 h3).1]; exact h3
    · have ht : ¬ (tablePrep qs 0).isEmpty = true := fun h => hg ((table_empty hw).1 h)
      refine ⟨{ w with fixed := w.fixed ++ [⟨b, tablePrep qs 0, none⟩] }, .nothing, by simp only [call, fixParams, hrq, if_neg ht, Res.bind_ok], rfl, ?_⟩
      have : s.next (.fix b) = { s with models := s.models ++ [(b, none)] } := by simp only [Spec.next, hps, if_neg hg]
      rw [this]
      refine ⟨hi.wf, hi.len, hi.lenb, hi.bases, ?_, by simp [hi.lenf], ?_⟩
      · intro b' hb' hlt
        exact hi.fresh b' (fun m h => hb' m (List.mem_append_left _ h)) hlt
      · intro f b' p m h1 h2
        have h1 : (s.models ++ [(b, none)])[f]? = some (b', p) := h1
        have h2 : (w.fixed ++ [⟨b, tablePrep qs 0, none⟩])[f]? = some m := h2
        by_cases hlt : f < s.models.length
        · rw [List.getElem?_append_left hlt] at h1
          rw [List.getElem?_append_left (by rw [hi.lenf]; exact hlt)] at h2
          exact hi.fixed f b' p m h1 h2
        · have hk := (List.getElem?_eq_some_iff.1 h1).1
          simp only [List.length_append, List.length_singleton] at hk
          have hf : f = s.models.length := by omega
          have hf2 : f = w.fixed.length := by rw [hi.lenf]; exact hf
          rw [List.getElem?_append_right hf.ge, hf, Nat.sub_self] at h1
          rw [List.getElem?_append_right hf2.ge, hf2, Nat.sub_self] at h2
          cases h1; cases h2
          exact ⟨qs, hps, rfl, by intro θ h; cases h⟩
  | copy f =>
    have ho : f < s.models.length := ho
    obtain ⟨m, hm, hrd⟩ := rd_get (l := w.fixed) (i := f) (by rw [hi.lenf]; exact ho)
    obtain ⟨⟨b, p⟩, hbp, -⟩ := rd_get ho
    refine ⟨{ w with fixed := w.fixed ++ [m] }, .nothing, by simp only [call, copyFixed, hrd, Res.bind_ok], rfl, ?_⟩
    have : s.next (.copy f) = { s with models := s.models ++ [(b, p)] } := by simp only [Spec.next, hbp, Option.toList]
    rw [this]
    refine ⟨hi.wf, hi.len, hi.lenb, hi.bases, ?_, by simp [hi.lenf], ?_⟩
    · intro b' hb' hlt
      exact hi.fresh b' (fun m h => hb' m (List.mem_append_left _ h)) hlt
    · intro g b' p' m' h1 h2
      have h1 : (s.models ++ [(b, p)])[g]? = some (b', p') := h1
      have h2 : (w.fixed ++ [m])[g]? = some m' := h2
      by_cases hlt : g < s.models.length
      · rw [List.getElem?_append_left hlt] at h1
        rw [List.getElem?_append_left (by rw [hi.lenf]; exact hlt)] at h2
        exact hi.fixed g b' p' m' h1 h2
      · have hk := (List.getElem?_eq_some_iff.1 h1).1
        simp only [List.length_append, List.length_singleton] at hk
        have hf : g = s.models.length := by omega
        have hf2 : g = w.fixed.length := by rw [hi.lenf]; exact hf
        rw [List.getElem?_append_right hf.ge, hf, Nat.sub_self] at h1
        rw [List.getElem?_append_right hf2.ge, hf2, Nat.sub_self] at h2
        cases h1; cases h2
        exact hi.fixed f b p m hbp hm
  | set f θ =>
    obtain ⟨b, p, ps, hbp, hps, hlen⟩ := ho
    have hf : f < w.fixed.length := by rw [hi.lenf]; exact (List.getElem?_eq_some_iff.1 hbp).1
    obtain ⟨m, hm, hrd⟩ := rd_get hf
    refine ⟨{ w with fixed := w.fixed.set f { m with par := some θ } }, .nothing, by simp only [call, setPar, hrd, wr_some hf, Res.bind_ok], rfl, ?_⟩
    have hmod : ∀ g, (s.models.modify f fun m => (m.1, some θ))[g]? = if f = g then some (b, some θ) else s.models[g]? := by
      intro g
      rw [List.getElem?_modify]
      split
      · rename_i e; subst e; rw [hbp]; rfl
      · simp
    refine ⟨hi.wf, hi.len, hi.lenb, hi.bases, ?_, by simp [Spec.next, hi.lenf], ?_⟩
    · intro b' hb' hlt
      apply hi.fresh b' _ hlt
      intro x hx
      obtain ⟨g, hg⟩ := List.mem_iff_getElem?.1 hx
      by_cases e : f = g
      · subst e
        rw [hbp] at hg; cases hg
        exact hb' (b, some θ) (List.mem_of_getElem? (i := f) (by have := hmod f; rw [if_pos rfl] at this; exact this))
      · exact hb' x (List.mem_of_getElem? (i := g) (by have := hmod g; rw [if_neg e, hg] at this; exact this))
    · intro g b' p' m' h1 h2
      have h1 : (s.models.modify f fun m => (m.1, some θ))[g]? = some (b', p') := h1
      have h2 : (w.fixed.set f { m with par := some θ })[g]? = some m' := h2
      rw [hmod] at h1
      by_cases e : f = g
      · subst e
        rw [if_pos rfl] at h1
        rw [List.getElem?_set_self hf] at h2
        cases h1; cases h2
        obtain ⟨ps', h3, h4, -⟩ := hi.fixed f b p m hbp hm
        rw [hps] at h3; cases h3
        refine ⟨ps, hps, by rw [h4], ?_⟩
        intro t ht; cases ht; exact hlen
      · rw [if_neg e] at h1
        rw [List.getElem?_set_ne e] at h2
        exact hi.fixed g b' p' m' h1 h2
  | eval f =>
    obtain ⟨b, θ, h⟩ := ho
    obtain ⟨ps, qs, hps, hu, hh, hinv⟩ := unpack_step hi f b θ h
    refine ⟨_, seenOf qs, by simp only [call, hu, Res.bind_ok], ?_, hinv⟩
    intro b' θ' ps' h1 h2
    rw [h] at h1; cases h1
    rw [hps] at h2; cases h2
    exact seen_holds hh
  | getBase f =>
    obtain ⟨b, θ, h⟩ := ho
    obtain ⟨ps, qs, hps, hu, hh, hinv⟩ := unpack_step hi f b θ h
    refine ⟨_, .pointer b, by simp only [call, hu, Res.bind_ok], ?_, hinv⟩
    intro b' p' h1
    rw [h] at h1; cases h1
    rfl
  | look b =>
    have ho : b < s.given.length := ho
    obtain ⟨qs, hqs, hrq⟩ := rd_get (l := w.bases) (i := b) (by rw [hi.lenb]; exact ho)
    refine ⟨w, seenOf qs, by simp only [call, hrq, Res.bind_ok], ?_, hi⟩
    intro ps p h1 h2
    exact seen_holds (hi.bases b ps qs p h1 hqs h2)

theorem calls_ok : ∀ (os : List (Op α)) (w : Heap α) (s : Spec α), Inv w s → AllAllowed s os → ∃ w' l, calls w os = .ok (w', l) ∧ Hist s os l
  | [], w, s, _, _ => ⟨w, [], rfl, .nil s⟩
  | o :: os, w, s, hi, ho => by
    obtain ⟨w', x, hc, hx, hi'⟩ := call_ok hi o ho.1
    obtain ⟨w'', l, hc', hl⟩ := calls_ok os w' (s.next o) hi' ho.2
    exact ⟨w'', x :: l, by simp only [calls, hc, hc', Res.bind_ok], .cons s o os x l hx hl⟩

/-- **C207**: any history of calls in which no base model is fixed twice has defined behaviour, and each evaluation of each fixed-parameter model or copy is at the parameters given with the NaNs replaced by its own parameters, whatever other models on the same base did before; a base model holds the parameters given, or these with the NaNs replaced by the parameters of the model evaluated last. -/
theorem C207_history (given : List (List (P α))) (hw : ∀ ps ∈ given, WF ps) (os : List (Op α)) (ho : AllAllowed (Spec.start given) os) :
    ∃ w l, calls ⟨given, []⟩ os = .ok (w, l) ∧ Hist (Spec.start given) os l := by
  apply calls_ok os _ _ _ ho
  refine ⟨hw, by simp [Spec.start], rfl, ?_, ?_, rfl, ?_⟩
  · intro b ps qs p h1 h2 h3
    have h1 : given[b]? = some ps := h1
    have h2 : given[b]? = some qs := h2
    rw [h1] at h2; cases h2
    have h3 : (given.map fun _ => none)[b]? = some p := h3
    rw [List.getElem?_map, h1] at h3
    cases h3; rfl
  · intro b _ h
    have h : b < (given.map fun _ => (none : Option (List (Option α)))).length := h
    show (given.map fun _ => none)[b]? = _
    rw [List.length_map] at h
    rw [List.getElem?_map, List.getElem?_eq_getElem h]; rfl
  · intro f b p m h
    have h : ([] : List (ℕ × Option (List (Option α))))[f]? = _ := h
    simp at h

/-- **C207** refuted for results kept apart: of two models on one base (an estimate and a copy, say), the two results of `apop_model_fix_params_get_base` are one and the same model, which holds the second's parameters. -/
theorem C207_get_base_refuted (ps : List (P α)) (hw : WF ps) (hg : gaps (cells ps) ≠ 0) (θ₁ θ₂ : List (Option α)) (h₁ : θ₁.length = gaps (cells ps)) (h₂ : θ₂.length = gaps (cells ps)) :
    ∃ w, calls ⟨[ps], []⟩ [.fix 0, .copy 0, .set 0 θ₁, .set 1 θ₂, .getBase 0, .getBase 1, .look 0] =
      .ok (w, [.nothing, .nothing, .nothing, .nothing, .pointer 0, .pointer 0, filled ps (some θ₂)]) := by
  have hn : (Spec.start [ps]).next (.fix 0) = ⟨[ps], [(0, none)], [none]⟩ := by simp [Spec.next, Spec.start, hg]
  obtain ⟨w, l, hc, hh⟩ := C207_history [ps] (by simpa using hw) [.fix 0, .copy 0, .set 0 θ₁, .set 1 θ₂, .getBase 0, .getBase 1, .look 0] (by
    simp only [AllAllowed, hn]
    refine ⟨⟨by simp [Spec.start], by simp [Spec.start]⟩, by simp [Allowed], ⟨0, none, ps, rfl, rfl, h₁⟩, ⟨0, none, ps, rfl, rfl, h₂⟩, ⟨0, θ₁, rfl⟩, ⟨0, θ₂, rfl⟩, by simp [Allowed, Spec.next, Spec.put], trivial⟩)
  cases hh with
  | cons _ _ _ x1 _ e1 hh =>
  rw [hn] at hh
  cases hh with
  | cons _ _ _ x2 _ e2 hh =>
  cases hh with
  | cons _ _ _ x3 _ e3 hh =>
  cases hh with
  | cons _ _ _ x4 _ e4 hh =>
  cases hh with
  | cons _ _ _ x5 _ e5 hh =>
  cases hh with
  | cons _ _ _ x6 _ e6 hh =>
  cases hh with
  | cons _ _ _ x7 _ e7 hh =>
  cases hh
  have e5 := e5 0 (some θ₁) rfl
  have e6 := e6 0 (some θ₂) rfl
  have e7 := e7 ps (some θ₂) rfl rfl
  rw [show x1 = .nothing from e1, show x2 = .nothing from e2, show x3 = .nothing from e3, show x4 = .nothing from e4, e5, e6, e7] at hc
  exact ⟨w, hc⟩

theorem gaps_fill : ∀ (l θ : List (Option α)), θ.length = gaps l → (∀ x ∈ θ, x.isSome = true) → gaps (fillGaps l θ) = 0
  | [], _, _, _ => rfl
  | some x :: l, θ, h, h' => by
    have : gaps (some x :: l) = gaps l := by simp [gaps]
    rw [this] at h
    have := gaps_fill l θ h h'
    simpa [fillGaps, gaps] using this
  | none :: l, [], h, _ => by simp [gaps] at h
  | none :: l, t :: θ, h, h' => by
    have e : gaps (none :: l) = gaps l + 1 := by simp [gaps]
    rw [e] at h
    have := gaps_fill l θ (by simpa using h) (fun x hx => h' x (List.mem_cons_of_mem _ hx))
    have ht := h' t List.mem_cons_self
    cases t with
    | none => cases ht
    | some y => simpa [fillGaps, gaps] using this

/-- **C207** refuted for fixing a model again: an evaluation has written to the model the user gave, so that it has no free parameters left; the second `apop_model_fix_params` returns a plain copy. -/
theorem C207_fix_again_refuted (ps : List (P α)) (hw : WF ps) (hg : gaps (cells ps) ≠ 0) (θ : List (Option α)) (h : θ.length = gaps (cells ps)) (hθ : ∀ x ∈ θ, x.isSome = true) :
    ∃ qs l, calls ⟨[ps], []⟩ [.fix 0, .set 0 θ, .eval 0, .fix 0] = .ok (⟨[qs, qs], [⟨0, tablePrep ps 0, some θ⟩]⟩, l) ∧ cells qs = fillGaps (cells ps) θ := by
  have ht : ¬ (tablePrep ps 0).isEmpty = true := fun h => hg ((table_empty hw).1 h)
  obtain ⟨qs, hu, hq⟩ := holds_fill (qs := ps) (p := none) hw rfl θ h
  have ht' : (tablePrep qs 0).isEmpty = true := (table_empty hq.1).2 (by rw [hq.2.2]; exact gaps_fill _ _ h hθ)
  refine ⟨qs, [.nothing, .nothing, seenOf qs, .nothing], ?_, hq.2.2⟩
  rw [List.isEmpty_iff] at ht ht'
  simp [calls, call, fixParams, setPar, unpackInto, rd, wr, ht, hu, ht']

/-- **C207** refuted for two fixed-parameter models on one base, made at different times: what the second has fixed (5) is changed by an evaluation of the first (to 7). -/
theorem C207_fixed_twice_refuted : ∃ (w : Heap ℕ) (l : List (Seen ℕ)) (sh : List (Option ℕ × Option (ℕ × ℕ))),
    calls ⟨[[⟨some [none, none], none⟩]], []⟩ [.fix 0, .set 0 [some 5, none], .eval 0, .fix 0, .set 1 [some 6], .eval 1, .set 0 [some 7, some 8], .eval 0, .set 1 [some 9], .eval 1] =
      .ok (w, l) ∧ w.fixed.map (·.table) = [[(0, -1, 0), (1, -1, 0)], [(1, -1, 0)]] ∧ l[5]? = some (.params sh [some 5, some 6]) ∧ l[9]? = some (.params sh [some 7, some 9]) :=
  ⟨_, _, [(some 2, none)], rfl, rfl, rfl, rfl⟩

/-- A history with two bases, a copy, and looks in between. -/
example : AllAllowed (Spec.start [[⟨some [some 1, none], none⟩], [⟨some [(none : Option ℕ)], none⟩]])
    [.fix 0, .fix 1, .copy 0, .set 0 [some 2], .set 1 [some 3], .set 2 [some 4], .eval 2, .eval 1, .look 0, .getBase 0, .look 0, .look 1] := by
  refine ⟨⟨by decide, by simp [Spec.start]⟩, ⟨by decide, by simp [Spec.start, Spec.next, cells, gaps]⟩, (by decide : 0 < 2), ⟨0, none, _, rfl, rfl, rfl⟩, ⟨1, none, _, rfl, rfl, rfl⟩, ⟨0, none, _, rfl, rfl, rfl⟩, ⟨0, _, rfl⟩, ⟨1, _, rfl⟩, (by decide : 0 < 2), ⟨0, _, rfl⟩, (by decide : 0 < 2), (by decide : 1 < 2), trivial⟩

example : ∃ w, calls ⟨[[⟨some [some 1, none], none⟩], [⟨some [(none : Option ℕ)], none⟩]], []⟩
    [.fix 0, .fix 1, .copy 0, .set 0 [some 2], .set 1 [some 3], .set 2 [some 4], .eval 2, .eval 1, .look 0, .getBase 0, .look 0, .look 1] =
    .ok (w, [.nothing, .nothing, .nothing, .nothing, .nothing, .nothing, .params [(some 2, none)] [some 1, some 4], .params [(some 1, none)] [some 3],
      .params [(some 2, none)] [some 1, some 4], .pointer 0, .params [(some 2, none)] [some 1, some 2], .params [(some 1, none)] [some 3]]) := ⟨_, rfl⟩

end Apop.Fix
