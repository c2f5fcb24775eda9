import Verif.Transform.Impute

/-! # C212: `apop_predict` (apop_model.m4.c:482-493)

The search of the default is that of C171. The method of the vtable (C114 is about which one is found) is any function: of the set and the model's parameters to a set or NULL, and to the set and the parameters afterwards. -/

namespace Apop.Predict
open Apop.Fix Apop.Impute
variable {α π R : Type}

/-- A method found in the table: what it returns (`none`: NULL) and the set it was given, afterwards. -/
abbrev Method (α π : Type) := List (P α) → π → Option (List (P α)) × List (P α) × π

/-- `apop_data_alloc(0, 1, dsize)` (apop_data.m4.c:37-54; C04) and `gsl_matrix_set_all(out->matrix, GSL_NAN)`, apop_model.m4.c:484-485: with a `dsize` of zero or less there is no matrix to be set. -/
def blank (dsize : ℤ) : Res (List (P α)) :=
  if 0 < dsize then .ok [⟨none, some ⟨[List.replicate dsize.toNat none], dsize.toNat⟩⟩] else .ub

/-- Lines 484-485: the set given, or a new one. -/
def start (dsize : ℤ) : Option (List (P α)) → Res (List (P α))
  | some d => .ok d
  | none => blank dsize

/-- `apop_map_sum(out, disnan)`, apop_model.m4.c:452 and 489: the number of NaNs on the first page (C49_numbers, C49_null). -/
def nans : List (P α) → ℕ
  | [] => 0
  | p :: _ => (match p.vec with | none => 0 | some v => v.countP Option.isNone) + (match p.mat with | none => 0 | some m => (m.rows.map (List.countP Option.isNone)).sum)

/-- Lines 487-488: the method of the table, if there is one. -/
def special (method : Option (Method α π)) (out : List (P α)) (params : π) : Option (List (P α)) × List (P α) × π :=
  match method with
  | none => (none, out, params)
  | some f => f out params

/-- Lines 488-492: a prediction is returned; otherwise a set without NaNs as it is, or imputed. -/
def finish (b : Base α π R) (cs : List (Call α)) (θ : List (Option α)) : Option (List (P α)) × List (P α) × π → Res (List (P α) × π)
  | (some pr, _, params) => .ok (pr, params)
  | (none, out, params) =>
    if nans out = 0 then .ok (out, params)
    else do
      let s ← impute b out params cs θ
      .ok (s.data, s.params)

/-- `apop_predict`, apop_model.m4.c:482-493: what is returned and the model's parameters afterwards; `d` is `none` for NULL; `cs` and `θ` are the evaluations and the result of the search, if it comes to one. -/
def predict (b : Base α π R) (method : Option (Method α π)) (dsize : ℤ) (params : π) (d : Option (List (P α))) (cs : List (Call α)) (θ : List (Option α)) : Res (List (P α) × π) := do
  let out ← start dsize d
  finish b cs θ (special method out params)

/-! ### Specification -/

/-- The set to be completed: the one given, or a row of `dsize` elements to be found. -/
def Asked (dsize : ℤ) : Option (List (P α)) → List (P α) → Prop
  | some d, out => out = d
  | none, out => 0 < dsize ∧ out.map shape = [(none, some (1, dsize.toNat))] ∧ cells out = List.replicate dsize.toNat none ∧ WF out

/-- Nothing to be found on the first page. -/
def Complete : List (P α) → Prop
  | [] => True
  | p :: _ => ∀ x ∈ cells [p], x ≠ none

/-! ### Theorems -/

theorem nans_zero : ∀ out : List (P α), nans out = 0 ↔ Complete out
  | [] => by simp [nans, Complete]
  | p :: ps => by
    obtain ⟨v, m⟩ := p
    have hf : ∀ l : List (List (Option α)), (l.map (List.countP Option.isNone)).sum = 0 ↔ ∀ x ∈ l.flatten, x ≠ none := by
      intro l
      induction l with
      | nil => simp
      | cons r rs ih =>
        simp only [List.map_cons, List.sum_cons, Nat.add_eq_zero_iff, ih, List.flatten_cons, List.mem_append, List.countP_eq_zero]
        constructor
        · rintro ⟨h1, h2⟩ x (hx | hx)
          · have := h1 x hx
            rintro rfl
            simp at this
          · exact h2 x hx
        · intro h
          refine ⟨fun x hx => ?_, fun x hx => h x (Or.inr hx)⟩
          have := h x (Or.inl hx)
          cases x <;> simp_all
    have hv : ∀ l : List (Option α), l.countP Option.isNone = 0 ↔ ∀ x ∈ l, x ≠ none := by
      intro l
      have := hf [l]
      simpa using this
    cases v with
    | none =>
      cases m with
      | none => simp [nans, Complete, cells]
      | some m => simpa [nans, Complete, cells] using hf m.rows
    | some v =>
      cases m with
      | none => simpa [nans, Complete, cells] using hv v
      | some m =>
        simp only [nans, Complete, cells, Nat.add_eq_zero_iff, hf, hv, List.flatMap_cons, List.flatMap_nil, List.append_nil, Option.getD_some, Option.map_some, List.mem_append]
        constructor
        · rintro ⟨h1, h2⟩ x (hx | hx)
          · exact h1 x hx
          · exact h2 x hx
        · intro h
          exact ⟨fun x hx => h x (Or.inl hx), fun x hx => h x (Or.inr hx)⟩

/-- The set that is asked for is there, if one was given or the model's dimension is positive. -/
theorem asked_exists (dsize : ℤ) (d : Option (List (P α))) (h : d = none → 0 < dsize) :
    ∃ out, start dsize d = .ok out ∧ Asked dsize d out := by
  cases d with
  | some d => exact ⟨d, rfl, rfl⟩
  | none =>
    have hd := h rfl
    refine ⟨[⟨none, some ⟨[List.replicate dsize.toNat none], dsize.toNat⟩⟩], by simp [start, blank, hd], hd, by simp [shape, Mat.size1], by simp [cells], ?_⟩
    intro p hp m hm
    simp only [List.mem_singleton] at hp
    subst hp
    simp only [Option.some.injEq] at hm
    subst hm
    intro r hr
    simp only [List.mem_singleton] at hr
    subst hr
    simp

/-- **A method of the table**: called on the set asked for; what it returns, if not NULL, is what is returned. -/
theorem C212_method (b : Base α π R) (f : Method α π) (dsize : ℤ) (params : π) (d : Option (List (P α))) (h : d = none → 0 < dsize) (cs : List (Call α)) (θ : List (Option α)) :
    ∃ out, Asked dsize d out ∧ ∀ pr, (f out params).1 = some pr → predict b (some f) dsize params d cs θ = .ok (pr, (f out params).2.2) := by
  obtain ⟨out, e, ha⟩ := asked_exists dsize d h
  refine ⟨out, ha, fun pr hp => ?_⟩
  have : f out params = (some pr, (f out params).2) := by rw [← hp]
  simp only [predict]
  rw [e]
  simp only [Res.bind_ok, special]
  rw [this]
  rfl

/-- **Nothing to be found**: without a method, a set with no NaN on its first page comes back as it is, and nothing is evaluated. -/
theorem C212_complete (b : Base α π R) (dsize : ℤ) (params : π) (d : List (P α)) (h : Complete d) (cs : List (Call α)) (θ : List (Option α)) :
    predict b none dsize params (some d) cs θ = .ok (d, params) := by
  simp [predict, start, special, finish, (nans_zero d).2 h]

/-- **The default**: without a method, if something is missing on the first page or no set was given, the set returned is the one asked for with what the search found in the place of what was missing, in order, on all pages, and the rest untouched; nothing is missing any more if the search found numbers; and the model's parameters are as they were. -/
theorem C212_default (b : Base α π R) (hb : b.Calm) (dsize : ℤ) (params : π) (d : Option (List (P α))) (hd : d = none → 0 < dsize) (hw : ∀ l, d = some l → WF l ∧ ¬Complete l)
    (h1 : (∀ l, d = some l → l.length = 1) ∨ ∀ f, b.constraint = some f → ∀ d, (f params d).1 = false) (cs : List (Call α)) (θ : List (Option α))
    (hθ : ∀ out, Asked dsize d out → Fits out θ ∧ ∀ c ∈ cs, Fits out c.values) :
    ∃ out r, Asked dsize d out ∧ predict b none dsize params d cs θ = .ok (r, params) ∧ r.map shape = out.map shape ∧ cells r = fillGaps (cells out) θ ∧
      Agree (cells out) (cells r) ∧ ((∀ t ∈ θ, t ≠ none) → ∀ x ∈ cells r, x ≠ none) := by
  obtain ⟨out, e, ha⟩ := asked_exists dsize d hd
  have hwf : WF out ∧ ¬Complete out ∧ (out.length = 1 ∨ ∀ f, b.constraint = some f → ∀ d, (f params d).1 = false) := by
    cases d with
    | some l =>
      have : out = l := ha
      subst this
      exact ⟨(hw _ rfl).1, (hw _ rfl).2, h1.imp (fun h => h _ rfl) id⟩
    | none =>
      obtain ⟨h0, h2, h3, h4⟩ := ha
      have hl : out.length = 1 := by simpa using congrArg List.length h2
      refine ⟨h4, ?_, Or.inl hl⟩
      match out, hl with
      | [p], _ =>
        intro hc
        have hc' : ∀ x ∈ cells [p], x ≠ none := hc
        rw [h3] at hc'
        exact hc' none (by simp; omega) rfl
  obtain ⟨w1, w2, w3⟩ := hwf
  obtain ⟨s, i1, i2, i3, i4, i5, i6⟩ := C171_impute b hb out w1 params w3 cs (hθ out ha).2 θ (hθ out ha).1
  refine ⟨out, s.data, ha, ?_, i3, i4, i5, i6⟩
  have hn : nans out ≠ 0 := fun h => w2 ((nans_zero out).1 h)
  simp only [predict]
  rw [e]
  simp [special, finish, hn, i1, i2]

/-- Without a set, and with a model whose dimension is unknown (-1) or none (0), a matrix that is not there is written to. -/
theorem C212_null_refuted (b : Base α π R) (method : Option (Method α π)) (dsize : ℤ) (h : dsize ≤ 0) (params : π) (cs : List (Call α)) (θ : List (Option α)) :
    predict b method dsize params none cs θ = .ub := by
  have : ¬0 < dsize := by omega
  simp [predict, start, blank, this]

/-- What is missing on a later page only stays missing. -/
theorem C212_later_pages_refuted : let d : List (P ℕ) := [⟨some [some 1], none⟩, ⟨some [none], none⟩]
    ∀ (b : Base ℕ Unit ℕ) (cs : List (Call ℕ)) (θ : List (Option ℕ)), predict b none 1 () (some d) cs θ = .ok (d, ()) := by
  intro d b cs θ
  exact C212_complete b 1 () d (by simp [Complete, cells, d]) cs θ

/-! Cases: no set and a model of dimension two; a set with a gap. -/

example : predict (π := Unit) (R := ℕ) ⟨fun _ d => (cells d).length, none⟩ none 2 () none [.ll [some 7, some 8]] [some 2, some 3] = .ok ([⟨none, some ⟨[[some 2, some 3]], 2⟩⟩], ()) := rfl

example : ¬Complete [⟨some [some 1, none], some ⟨[[some (3 : ℕ)], [none]], 1⟩⟩] ∧
    predict (π := Unit) (R := ℕ) ⟨fun _ d => (cells d).length, none⟩ none 2 () (some [⟨some [some 1, none], some ⟨[[some 3], [none]], 1⟩⟩]) [] [some 5, some 6] =
      .ok ([⟨some [some 1, some 5], some ⟨[[some 3], [some 6]], 1⟩⟩], ()) := by
  refine ⟨by simp [Complete, cells], rfl⟩

end Apop.Predict
