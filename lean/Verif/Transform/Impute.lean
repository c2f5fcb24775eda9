import Verif.Transform.FixParams

/-! # C171: `apop_ml_impute` (apop_missing_data.m4.c:84-147)

The function gives `apop_model_fix_params` a model whose parameters are the data and whose data are the parameters, and estimates that. The search is any sequence of evaluations of the log likelihood and the constraint, and its result any list of values (C119 and on are about the search). -/

namespace Apop.Impute
open Apop.Fix
variable {α π R : Type}

/-- The model from which the data are supposed to come: its log likelihood given parameters and data, and its constraint: whether it fails, and the parameters after it. -/
structure Base (α π R : Type) where
  ll : π → List (P α) → R
  constraint : Option (π → List (P α) → Bool × π)

/-- What the search can change: the data set and the model's parameters. -/
structure St (α π : Type) where
  data : List (P α)
  params : π

/-- A call of the search. -/
inductive Call (α : Type) where
  | ll (θ : List (Option α))
  | constraint (θ : List (Option α))

/-- Its answer; after a failed constraint also the trial values read back. -/
inductive Answer (α R : Type) where
  | value (r : R)
  | met
  | failed (θ : List (Option α))

/-- `i_constraint`, apop_missing_data.m4.c:106-115: if the constraint fails the parameters are put back. -/
def iConstraint (b : Base α π R) (s : St α π) : Bool × St α π :=
  match b.constraint with
  | none => (false, s)
  | some c => ((c s.params s.data).1, { s with params := if (c s.params s.data).1 then s.params else (c s.params s.data).2 })

/-- The end of `fix_params_constraint`, transform/apop_fix_params.c:138-139. -/
def afterConstraint (table : List Entry) : Bool × St α π → Res (Answer α R × St α π)
  | (false, s) => .ok (.met, s)
  | (true, s) => do .ok (.failed (← pack table s.data), s)

/-- `fix_params_ll` and `fix_params_constraint`, transform/apop_fix_params.c:122-140, on the model made by `apop_ml_impute`, with `i_ll`, apop_missing_data.m4.c:95-98. -/
def call (b : Base α π R) (table : List Entry) (s : St α π) : Call α → Res (Answer α R × St α π)
  | .ll θ => do
    let data ← unpack table θ s.data
    .ok (.value (b.ll s.params data), { s with data := data })
  | .constraint θ => do
    let data ← unpack table θ s.data
    afterConstraint table (iConstraint b { s with data := data })

/-- The search: calls one after the other. -/
def search (b : Base α π R) (table : List Entry) : List (Call α) → St α π → Res (List (Answer α R) × St α π)
  | [], s => .ok ([], s)
  | c :: cs, s => do
    let (a, s) ← call b table s c
    let (as, s) ← search b table cs s
    .ok (a :: as, s)

/-- `apop_ml_impute` with a model given and something missing: the search, and the unpacking of what it found, `fixed_est`, transform/apop_fix_params.c:148-153. -/
def impute (b : Base α π R) (data : List (P α)) (params : π) (cs : List (Call α)) (θ : List (Option α)) : Res (St α π) := do
  let (_, s) ← search b (tablePrep data 0) cs ⟨data, params⟩
  .ok { s with data := ← unpack (tablePrep data 0) θ s.data }

/-! ### Specification -/

/-- The trial values of a call. -/
def Call.values : Call α → List (Option α)
  | .ll θ => θ
  | .constraint θ => θ

/-- Values for all that is missing, and only for that. -/
def Fits (data : List (P α)) (θ : List (Option α)) : Prop := θ.length = gaps (cells data)

/-- A constraint that is met leaves the parameters alone. -/
def Base.Calm (b : Base α π R) : Prop := ∀ c, b.constraint = some c → ∀ p d, (c p d).1 = false → (c p d).2 = p

/-- The right answer to a call: the log likelihood, at the given parameters, of the data with the trial values filled in; or whether the constraint is met by them. -/
def Right (b : Base α π R) (data : List (P α)) (params : π) (c : Call α) (a : Answer α R) : Prop :=
  ∃ filled : List (P α), filled.map shape = data.map shape ∧ cells filled = fillGaps (cells data) c.values ∧
    match c with
    | .ll _ => a = .value (b.ll params filled)
    | .constraint θ => ((∀ f, b.constraint = some f → (f params filled).1 = false) ∧ a = .met) ∨ ((∃ f, b.constraint = some f ∧ (f params filled).1 = true) ∧ a = .failed θ)

/-! ### Theorems -/

/-- What holds between the calls. -/
structure Inv (data : List (P α)) (params : π) (s : St α π) : Prop where
  wf : WF s.data
  sh : s.data.map shape = data.map shape
  ag : Agree (cells data) (cells s.data)
  pa : s.params = params

theorem call_right (b : Base α π R) (hb : b.Calm) (data : List (P α)) (hw : WF data) (params : π) (s : St α π) (hi : Inv data params s) (c : Call α) (hθ : Fits data c.values)
    (h1 : data.length = 1 ∨ ∀ f, b.constraint = some f → ∀ d, (f params d).1 = false) :
    ∃ a s', call b (tablePrep data 0) s c = .ok (a, s') ∧ Inv data params s' ∧ Right b data params c a := by
  obtain ⟨qs, e1, e2, e3, e4⟩ := C79_fill data s.data hw hi.wf hi.sh hi.ag c.values hθ
  have hpa := hi.pa
  cases c with
  | ll θ =>
    simp only [Call.values] at e1 e4
    refine ⟨.value (b.ll s.params qs), ⟨qs, s.params⟩, by simp [call, e1], ⟨e3, e2, by rw [e4]; exact agree_fill _ _, hpa⟩, qs, e2, e4, ?_⟩
    simp only
    rw [hpa]
  | constraint θ =>
    simp only [Call.values] at e1 e4
    cases hc : b.constraint with
    | none =>
      refine ⟨.met, ⟨qs, s.params⟩, by simp [call, e1, iConstraint, hc, afterConstraint], ⟨e3, e2, by rw [e4]; exact agree_fill _ _, hpa⟩, qs, e2, e4, Or.inl ⟨?_, rfl⟩⟩
      intro f hf
      simp [hc] at hf
    | some f =>
      cases hf : (f params qs).1 with
      | false =>
        have hq := hb f hc params qs hf
        refine ⟨.met, ⟨qs, s.params⟩, by simp [call, e1, iConstraint, hc, afterConstraint, hpa, hf, hq], ⟨e3, e2, by rw [e4]; exact agree_fill _ _, hpa⟩, qs, e2, e4, Or.inl ⟨?_, rfl⟩⟩
        intro g hg
        rw [hc] at hg
        cases hg
        exact hf
      | true =>
        rcases h1 with h1 | h1
        · match data, h1, hw, e2, e4, hi, hθ with
          | [p0], _, hw, e2, e4, hi, hθ =>
            match qs, e1, e2, e3, e4, hf with
            | [q], e1, e2, e3, e4, hf =>
              have hp := C79_pack p0 q [] hw e3 (by simpa using e2)
              rw [e4, atGaps_fill _ θ hθ] at hp
              refine ⟨.failed θ, ⟨[q], s.params⟩, ?_, ⟨e3, e2, by rw [e4]; exact agree_fill _ _, hpa⟩, [q], e2, e4, Or.inr ⟨⟨f, hc, hf⟩, rfl⟩⟩
              simp [call, e1, iConstraint, hc, afterConstraint, hpa, hf, hp]
            | [], _, e2, _, _, _ => simp at e2
            | _ :: _ :: _, _, e2, _, _, _ => simp at e2
        · rw [h1 f hc qs] at hf
          cases hf

theorem search_right (b : Base α π R) (hb : b.Calm) (data : List (P α)) (hw : WF data) (params : π)
    (h1 : data.length = 1 ∨ ∀ f, b.constraint = some f → ∀ d, (f params d).1 = false) : ∀ (cs : List (Call α)) (_ : ∀ c ∈ cs, Fits data c.values) (s : St α π), Inv data params s →
    ∃ as s', search b (tablePrep data 0) cs s = .ok (as, s') ∧ Inv data params s' ∧ List.Forall₂ (Right b data params) cs as
  | [], _, s, hi => ⟨[], s, rfl, hi, List.Forall₂.nil⟩
  | c :: cs, h, s, hi => by
    obtain ⟨a, s', e1, hi', hr⟩ := call_right b hb data hw params s hi c (h c (by simp)) h1
    obtain ⟨as, s'', e2, hi'', hrs⟩ := search_right b hb data hw params h1 cs (fun c hc => h c (by simp [hc])) s' hi'
    exact ⟨a :: as, s'', by simp [search, e1, e2], hi'', List.Forall₂.cons hr hrs⟩

/-- **The search sees what it should**: every call, whatever came before, is answered by the log likelihood of the data as given with the missing elements replaced by the trial values, under the parameters given; or by the constraint at the same point. -/
theorem C171_search (b : Base α π R) (hb : b.Calm) (data : List (P α)) (hw : WF data) (params : π) (h1 : data.length = 1 ∨ ∀ f, b.constraint = some f → ∀ d, (f params d).1 = false)
    (cs : List (Call α)) (hcs : ∀ c ∈ cs, Fits data c.values) :
    ∃ as s, search b (tablePrep data 0) cs ⟨data, params⟩ = .ok (as, s) ∧ List.Forall₂ (Right b data params) cs as := by
  obtain ⟨as, s, e, -, hr⟩ := search_right b hb data hw params h1 cs hcs ⟨data, params⟩ ⟨hw, rfl, agree_refl _, rfl⟩
  exact ⟨as, s, e, hr⟩

theorem fill_complete : ∀ (l θ : List (Option α)), θ.length = gaps l → (∀ t ∈ θ, t ≠ none) → ∀ x ∈ fillGaps l θ, x ≠ none
  | [], θ, _, _, x, hx => by simp [fillGaps] at hx
  | some y :: l, θ, h, ht, x, hx => by
    simp only [fillGaps, List.mem_cons] at hx
    rcases hx with rfl | hx
    · simp
    · exact fill_complete l θ (by simpa [gaps] using h) ht x hx
  | none :: l, t :: θ, h, ht, x, hx => by
    simp only [fillGaps, List.mem_cons] at hx
    rcases hx with rfl | hx
    · exact ht _ (by simp)
    · exact fill_complete l θ (by simpa [gaps] using h) (fun t h => ht t (by simp [h])) x hx
  | none :: l, [], h, _, _, _ => by simp [gaps] at h

/-- **The data afterwards**: whatever the search did, the data set keeps its shape and all that was not missing; the missing elements hold, in order, what the search found; if those are numbers nothing is missing any more; and the model's parameters are the ones given. -/
theorem C171_impute (b : Base α π R) (hb : b.Calm) (data : List (P α)) (hw : WF data) (params : π) (h1 : data.length = 1 ∨ ∀ f, b.constraint = some f → ∀ d, (f params d).1 = false)
    (cs : List (Call α)) (hcs : ∀ c ∈ cs, Fits data c.values) (θ : List (Option α)) (hθ : Fits data θ) :
    ∃ s, impute b data params cs θ = .ok s ∧ s.params = params ∧ s.data.map shape = data.map shape ∧ cells s.data = fillGaps (cells data) θ ∧
      Agree (cells data) (cells s.data) ∧ ((∀ t ∈ θ, t ≠ none) → ∀ x ∈ cells s.data, x ≠ none) := by
  obtain ⟨as, s, e, hi, -⟩ := search_right b hb data hw params h1 cs hcs ⟨data, params⟩ ⟨hw, rfl, agree_refl _, rfl⟩
  obtain ⟨qs, e1, e2, e3, e4⟩ := C79_fill data s.data hw hi.wf hi.sh hi.ag θ hθ
  refine ⟨⟨qs, s.params⟩, by simp [impute, e, e1], hi.pa, e2, e4, by simp only; rw [e4]; exact agree_fill _ _, fun ht => ?_⟩
  simp only
  rw [e4]
  exact fill_complete _ _ hθ ht

/-- A case: a matrix with two elements missing, a search of two calls. -/
example : let data : List (P ℕ) := [⟨none, some ⟨[[some 1, none], [none, some 4]], 2⟩⟩]
    let b : Base ℕ Unit ℕ := ⟨fun _ d => (cells d).length, some fun _ _ => (true, ())⟩
    b.Calm ∧ data.length = 1 ∧ Fits data [some 2, some 3] ∧
    impute b data () [.ll [some 7, some 8], .constraint [some 5, some 6]] [some 2, some 3] = .ok ⟨[⟨none, some ⟨[[some 1, some 2], [some 3, some 4]], 2⟩⟩], ()⟩ := by
  refine ⟨?_, rfl, rfl, rfl⟩
  intro c hc p d _
  rfl

end Apop.Impute
