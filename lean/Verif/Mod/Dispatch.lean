import Verif.Vtable.Props

/-! # Which method runs: `apop_draw` (apop_model.m4.c:413-436) and the hashes of the special-case tables
(apop.m4.h:515-549) -- C113, C114

Function pointers are 64-bit numbers, NULL is zero. -/

namespace Apop.Mod

/-! ## Draws -/

/-- What `apop_draw` looks at and changes in a model: the `draw` method (0 is NULL), `dsize`, and whether the model has an
`apop_mcmc` group (and which chain it holds). -/
structure Drawable where
  draw : UInt64
  dsize : Int
  chain : Option Nat
  deriving DecidableEq, Repr

/-- The method that ends up called. -/
inductive Called where
  | own (f : UInt64)
  | arms
  deriving DecidableEq, Repr

/-- `apop_draw`, apop_model.m4.c:413-436: `Draws mh est m c m'` says that a call for `m` ends with calling `c` and leaves the
model as `m'`. `mh` is `apop_model_metropolis_draw`, `est` the chain an estimation would give (its failure is not
modelled). -/
inductive Draws (mh : UInt64) (est : Nat) : Drawable → Called → Drawable → Prop
  | own (m) (h : m.draw ≠ 0) : Draws mh est m (.own m.draw) m
  | arms (m) (h : m.draw = 0) (h1 : m.dsize = 1) : Draws mh est m .arms m
  | setup (m c m') (h : m.draw = 0) (h1 : m.dsize ≠ 1) (hn : m.chain = none)
      (again : Draws mh est { m with draw := mh, chain := some est } c m') : Draws mh est m c m'
  | group (m c m') (h : m.draw = 0) (h1 : m.dsize ≠ 1) (hs : m.chain.isSome)
      (again : Draws mh est m c m') : Draws mh est m c m'

/-- **C113**: a model with its own draw method uses it; one without, of dimension one, uses adaptive rejection; another without
an `apop_mcmc` group gets, at its first draw, a Markov chain estimated and `apop_model_metropolis_draw` as its method. This
is the only outcome. -/
theorem C113_dispatch (mh : UInt64) (hmh : mh ≠ 0) (est : Nat) (m : Drawable) (hm : m.draw ≠ 0 ∨ m.dsize = 1 ∨ m.chain = none) (c : Called) (m' : Drawable) :
    Draws mh est m c m' ↔
      if m.draw ≠ 0 then c = .own m.draw ∧ m' = m
      else if m.dsize = 1 then c = .arms ∧ m' = m
      else c = .own mh ∧ m' = { m with draw := mh, chain := some est } := by
  constructor
  · intro h
    cases h with
    | own _ h => simp [h]
    | arms _ h h1 => simp [h, h1]
    | setup _ _ _ h h1 hn again =>
      simp only [h, ne_eq, not_true_eq_false, if_false, h1]
      cases again with
      | own _ _ => exact ⟨rfl, rfl⟩
      | arms _ h' _ => exact absurd h' hmh
      | setup _ _ _ h' _ _ _ => exact absurd h' hmh
      | group _ _ _ h' _ _ _ => exact absurd h' hmh
    | group _ _ _ h h1 hs again =>
      rcases hm with hm | hm | hm
      · exact absurd h hm
      · exact absurd hm h1
      · rw [hm] at hs; cases hs
  · intro h
    by_cases hd : m.draw ≠ 0
    · rw [if_pos hd] at h
      obtain ⟨rfl, rfl⟩ := h
      exact .own _ hd
    · rw [if_neg hd] at h
      have hd' : m.draw = 0 := by simpa using hd
      by_cases h1 : m.dsize = 1
      · rw [if_pos h1] at h
        obtain ⟨rfl, rfl⟩ := h
        exact .arms _ hd' h1
      · rw [if_neg h1] at h
        obtain ⟨rfl, rfl⟩ := h
        have hn : m.chain = none := by
          rcases hm with hm | hm | hm
          · exact absurd hm hd
          · exact absurd hm h1
          · exact hm
        exact .setup _ _ _ hd' h1 hn (.own _ hmh)

/-- **C113, later draws**: after a first draw every further one calls the same method and changes nothing: the chain is
estimated at most once. -/
theorem C113_stable (mh : UInt64) (hmh : mh ≠ 0) (est est' : Nat) (m m' : Drawable) (c : Called)
    (hm : m.draw ≠ 0 ∨ m.dsize = 1 ∨ m.chain = none) (h : Draws mh est m c m') : Draws mh est' m' c m' := by
  rw [C113_dispatch mh hmh est m hm] at h
  by_cases hd : m.draw ≠ 0
  · rw [if_pos hd] at h
    obtain ⟨rfl, rfl⟩ := h
    exact .own _ hd
  · rw [if_neg hd] at h
    have hd' : m.draw = 0 := by simpa using hd
    by_cases h1 : m.dsize = 1
    · rw [if_pos h1] at h
      obtain ⟨rfl, rfl⟩ := h
      exact .arms _ hd' h1
    · rw [if_neg h1] at h
      obtain ⟨rfl, rfl⟩ := h
      exact .own { m with draw := mh, chain := some est } hmh

example : Draws 99 7 ⟨0, 2, none⟩ (.own 99) ⟨99, 2, some 7⟩ := .setup _ _ _ rfl (by decide) rfl (.own _ (by decide))

/-- A multivariate model without a draw method but with an `apop_mcmc` group (as one adds for `apop_update`) has no outcome at
all: the function calls itself for ever. -/
theorem C113_endless_refuted (mh : UInt64) (est : Nat) (m : Drawable) (h : m.draw = 0) (h1 : m.dsize ≠ 1) (hs : m.chain.isSome)
    (c : Called) (m' : Drawable) : ¬ Draws mh est m c m' := by
  intro d
  induction d with
  | own m h' => exact absurd h h'
  | arms m _ h' => exact absurd h' h1
  | setup m c m' _ _ hn _ _ => rw [hn] at hs; cases hs
  | group m c m' _ _ _ _ ih => exact ih h h1 hs

/-! ## Hashes -/

/-- The method pointers of a model that the hashes use. -/
structure Ptrs where
  ll : UInt64 := 0
  p : UInt64 := 0
  estimate : UInt64 := 0
  draw : UInt64 := 0
  cdf : UInt64 := 0
  deriving DecidableEq, Repr

/-- C's `a ? b : c`. -/
def tern (a b c : UInt64) : UInt64 := if a ≠ 0 then b else c

/-- `apop_score_hash`, apop.m4.h:532. -/
def scoreHash (m : Ptrs) : UInt64 := tern m.ll m.ll m.p

/-- `apop_predict_hash`, apop.m4.h:540, and `apop_parameter_model_hash`, 536. The sum is the condition of `?:`. -/
def predictHash (m : Ptrs) : UInt64 := tern (tern m.ll m.ll m.p * 33 + m.estimate) m.estimate 27

/-- `apop_model_print_hash`, apop.m4.h:544-549. -/
def printHash (m : Ptrs) : UInt64 :=
  tern m.ll m.ll (tern m.p (m.p * 33) (tern m.estimate (m.estimate * 33 * 33) (tern m.draw (m.draw * 33 * 27)
    (tern m.cdf (m.cdf * 27 * 27) 27))))

/-- One half of `apop_update_hash`, apop.m4.h:516-524. -/
def updateHalf (m : Ptrs) : UInt64 := tern m.ll m.ll (tern m.p (m.p * 33) (tern m.draw (m.draw * 33 * 27) (33 * 27 * 19)))

/-- `apop_update_hash`. -/
def updateHash (m1 m2 : Ptrs) : UInt64 := updateHalf m1 + updateHalf m2 * 37

/-- The names of the tables. -/
inductive Table
  | update | entropy | score | parameterModel | predict | print
  deriving DecidableEq

def Table.name : Table → CStr
  | .update => str "apop_update"
  | .entropy => str "apop_entropy"
  | .score => str "apop_score"
  | .parameterModel => str "apop_parameter_model"
  | .predict => str "apop_predict"
  | .print => str "apop_model_print"

/-- The library's tables. -/
def Library (t : CStr) : Prop := ∃ T : Table, t = T.name

/-- The names of the library's tables hash to different numbers, none zero: C25 applies. -/
theorem library_usable : Vtable.Usable Library := by
  constructor
  · rintro t ⟨T, rfl⟩
    cases T <;> decide +kernel
  · rintro t u ⟨T, rfl⟩ ⟨V, rfl⟩ h
    cases T <;> cases V <;> first | rfl | (exfalso; revert h; decide +kernel)

/-! ## What a lookup gives -/

variable {φ : Type}

/-- Registrations in one table, in order: for which model, which function. -/
def ops (T : Table) (hash : Ptrs → UInt64) (regs : List (Ptrs × φ)) : List (Vtable.Op φ) :=
  regs.map (fun r => .add T.name r.2 (hash r.1))

theorem spec_adds (T : Table) (hash : Ptrs → UInt64) (k : UInt64) : ∀ (regs : List (Ptrs × φ)) (m : Vtable.Spec φ),
    (Vtable.Spec.run m (ops T hash regs)).1 T.name k =
      (m T.name k).or ((regs.find? (fun r => hash r.1 == k)).map (·.2))
  | [], m => by simp [ops, Vtable.Spec.run]
  | r :: regs, m => by
    have ih := spec_adds T hash k regs (m.step (.add T.name r.2 (hash r.1))).1
    have e : (Vtable.Spec.run m (ops T hash (r :: regs))).1 T.name k =
        (Vtable.Spec.run (m.step (.add T.name r.2 (hash r.1))).1 (ops T hash regs)).1 T.name k := rfl
    rw [e, ih]
    by_cases hk : hash r.1 = k
    · subst hk
      cases hm : m T.name (hash r.1) <;> simp [Vtable.Spec.step, hm]
    · have hk' : ¬ k = hash r.1 := fun e => hk e.symm
      simp [Vtable.Spec.step, hk, hk']

/-- The lookup after registrations: the first function registered for a model with the same hash. -/
theorem lookup_regs (null : φ) (T : Table) (hash : Ptrs → UInt64) (regs : List (Ptrs × φ)) (m : Ptrs) :
    ∃ r a, Vtable.run null none none (ops T hash regs) = .ok (r, a) ∧
      Vtable.get r T.name (hash m) = .ok ((regs.find? (fun r => hash r.1 == hash m)).map (·.2)) := by
  obtain ⟨r, h, g⟩ := Vtable.C25_adds library_usable null (ops T hash regs)
    (by intro o ho; simp only [ops, List.mem_map] at ho; obtain ⟨x, _, rfl⟩ := ho; exact ⟨T, rfl⟩)
    (by intro o ho; simp only [ops, List.mem_map] at ho; obtain ⟨x, _, rfl⟩ := ho; exact ⟨_, _, _, rfl⟩)
  refine ⟨r, _, h, ?_⟩
  rw [g _ ⟨T, rfl⟩, spec_adds]
  simp

/-- The method a model's likelihood is computed with: its log likelihood, else its `p`. -/
def likelihood (m : Ptrs) : UInt64 := if m.ll = 0 then m.p else m.ll

/-- **C114, scores**: after any registrations of scores, the score found for a model is the first one registered for a model
with the same likelihood method, whatever else is registered; in particular a score is never used for a model with another
likelihood. -/
theorem C114_score (null : φ) (regs : List (Ptrs × φ)) (m : Ptrs) :
    ∃ r a, Vtable.run null none none (ops .score scoreHash regs) = .ok (r, a) ∧
      Vtable.get r Table.score.name (scoreHash m) =
        .ok ((regs.find? (fun r => likelihood r.1 == likelihood m)).map (·.2)) := by
  obtain ⟨r, a, h, g⟩ := lookup_regs null .score scoreHash regs m
  refine ⟨r, a, h, ?_⟩
  rw [g]
  have : ∀ m : Ptrs, scoreHash m = likelihood m := by
    intro m; unfold scoreHash tern likelihood; by_cases e : m.ll = 0 <;> simp [e]
  simp only [this]

/-- A predict or parameter-model hash is sensible if the model's estimate method is there. -/
theorem predictHash_eq (m : Ptrs) (h : likelihood m * 33 + m.estimate ≠ 0) : predictHash m = m.estimate := by
  have : tern m.ll m.ll m.p = likelihood m := by
    unfold tern likelihood; by_cases e : m.ll = 0 <;> simp [e]
  unfold predictHash
  rw [this]
  simp only [tern, h, ne_eq, not_false_eq_true, if_true]

theorem find_congr {β : Type} {f g : β → Bool} : ∀ {l : List β}, (∀ x ∈ l, f x = g x) → l.find? f = l.find? g
  | [], _ => rfl
  | x :: l, h => by
    rw [List.find?_cons, List.find?_cons, h x (List.mem_cons_self ..), find_congr (fun y hy => h y (List.mem_cons_of_mem _ hy))]

/-- **C114, predictions**: for models with estimate methods (the sum in the hash not zero, as is certain unless the two pointers
cancel out modulo 2⁶⁴), the method found is the first registered for a model with the same estimate method: the likelihood,
which the documented hash includes, plays no part. -/
theorem C114_predict (null : φ) (T : Table) (regs : List (Ptrs × φ)) (m : Ptrs)
    (hm : likelihood m * 33 + m.estimate ≠ 0) (hr : ∀ r ∈ regs, likelihood r.1 * 33 + r.1.estimate ≠ 0) :
    ∃ r a, Vtable.run null none none (ops T predictHash regs) = .ok (r, a) ∧
      Vtable.get r T.name (predictHash m) =
        .ok ((regs.find? (fun r => r.1.estimate == m.estimate)).map (·.2)) := by
  obtain ⟨r, a, h, g⟩ := lookup_regs null T predictHash regs m
  refine ⟨r, a, h, ?_⟩
  rw [g, predictHash_eq m hm]
  rw [find_congr]
  intro x hx
  rw [predictHash_eq x.1 (hr x hx)]

/-- The prediction method registered for one model without an estimate method (as `apop_logit`'s) is used for every other
model without one, whatever its likelihood: predictions for a Yule or a mixture model are made as for a logit. -/
theorem C114_predict_refuted (null f : φ) (logit other : Ptrs) (h1 : logit.estimate = 0) (h2 : other.estimate = 0)
    (h3 : likelihood logit * 33 ≠ 0) (h4 : likelihood other * 33 ≠ 0) :
    ∃ r a, Vtable.run null none none (ops .predict predictHash [(logit, f)]) = .ok (r, a) ∧
      Vtable.get r Table.predict.name (predictHash other) = .ok (some f) := by
  obtain ⟨r, a, h, g⟩ := C114_predict null .predict [(logit, f)] other (by simpa [h2] using h4)
    (by intro x hx; simp at hx; subst hx; simpa [h1] using h3)
  refine ⟨r, a, h, ?_⟩
  rw [g]
  simp [h1, h2]

/-- Two such models with different likelihoods. -/
example : ∃ r a, Vtable.run 0 none none (ops .predict predictHash [(({ ll := 4096 } : Ptrs), 77)]) = .ok (r, a) ∧
    Vtable.get r Table.predict.name (predictHash { ll := 8192 }) = .ok (some (77 : Nat)) :=
  C114_predict_refuted 0 77 _ _ rfl rfl (by decide) (by decide)

theorem mul_inj {k inv a b : UInt64} (h : k * inv = 1) (e : a * k = b * k) : a = b := by
  have := congrArg (· * inv) e
  simp only [UInt64.mul_assoc, h, UInt64.mul_one] at this
  exact this

/-- **C114, printing**: of two models with a log likelihood, a print method registered for one is used for the other exactly if
they have the same log likelihood; of two with only a `p`, exactly if the same `p`; and so on for models with only an
estimate, a draw, or a cdf method. -/
theorem C114_print (m n : Ptrs) :
    (m.ll ≠ 0 → n.ll ≠ 0 → (printHash m = printHash n ↔ m.ll = n.ll)) ∧
    (m.ll = 0 → n.ll = 0 → m.p ≠ 0 → n.p ≠ 0 → (printHash m = printHash n ↔ m.p = n.p)) ∧
    (m.ll = 0 → n.ll = 0 → m.p = 0 → n.p = 0 → m.estimate ≠ 0 → n.estimate ≠ 0 → (printHash m = printHash n ↔ m.estimate = n.estimate)) ∧
    (m.ll = 0 → n.ll = 0 → m.p = 0 → n.p = 0 → m.estimate = 0 → n.estimate = 0 → m.draw ≠ 0 → n.draw ≠ 0 →
      (printHash m = printHash n ↔ m.draw = n.draw)) := by
  have i33 : (33 : UInt64) * 1117984489315730401 = 1 := by decide +kernel
  have i27 : ∃ x, (27 : UInt64) * x = 1 := ⟨9564978408590137875, by decide +kernel⟩
  obtain ⟨x27, i27⟩ := i27
  refine ⟨?_, ?_, ?_, ?_⟩
  · intro a b; simp [printHash, tern, a, b]
  · intro a b c d; simp only [printHash, tern, a, b, c, d, ne_eq, not_true_eq_false, not_false_eq_true, if_true, if_false]
    exact ⟨mul_inj i33, fun e => by rw [e]⟩
  · intro a b c d e f
    simp only [printHash, tern, a, b, c, d, e, f, ne_eq, not_true_eq_false, not_false_eq_true, if_true, if_false]
    exact ⟨fun h => mul_inj i33 (mul_inj i33 h), fun e => by rw [e]⟩
  · intro a b c d e f g h
    simp only [printHash, tern, a, b, c, d, e, f, g, h, ne_eq, not_true_eq_false, not_false_eq_true, if_true, if_false]
    exact ⟨fun h => mul_inj i33 (mul_inj i27 h), fun e => by rw [e]⟩

/-- **C114, updating**: with the same prior, a conjugate update is found for two likelihood models exactly if their halves of
the hash agree, and with the same likelihood model likewise for the priors; for models with log likelihoods, exactly if these
are the same. -/
theorem C114_update (m n k : Ptrs) (hm : m.ll ≠ 0) (hn : n.ll ≠ 0) :
    (updateHash m k = updateHash n k ↔ m.ll = n.ll) ∧ (updateHash k m = updateHash k n ↔ m.ll = n.ll) := by
  have i37 : (37 : UInt64) * 1495681951922396077 = 1 := by decide +kernel
  have e : ∀ x : Ptrs, x.ll ≠ 0 → updateHalf x = x.ll := by intro x h; simp [updateHalf, tern, h]
  unfold updateHash
  rw [e m hm, e n hn]
  refine ⟨⟨fun h => ?_, fun h => by rw [h]⟩, ⟨fun h => ?_, fun h => by rw [h]⟩⟩
  · exact (UInt64.add_left_inj _).mp h
  · exact mul_inj i37 ((UInt64.add_right_inj _).mp h)

/-- Two pairs of models may share a hash all the same: a (prior, likelihood) pair and another. -/
theorem C114_update_collision_refuted : updateHash { ll := 37 } { ll := 2 } = updateHash { ll := 74 } { ll := 1 } := by decide +kernel

end Apop.Mod
