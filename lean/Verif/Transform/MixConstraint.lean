import Verif.Transform.Mixture

/-! # C210: the constraint of a mixture (transform/apop_mixture.c:302-329) -/

namespace Apop.Mix

/-- The constraint of a component: given its parameters, the penalty and the parameters as it leaves them. `none`: a model
without a constraint. -/
abbrev Check := Option (List ℝ → ℝ × List ℝ)

/-- transform/apop_mixture.c:307-308: every component is asked, and the penalties are added up; the constraint is called without a look at
whether there is one. -/
def askAll : List Check → List (List ℝ) → Res (ℝ × List (List ℝ))
  | [], [] => .ok (0, [])
  | some f :: fs, c :: cs => do
    let r ← askAll fs cs
    .ok ((f c).1 + r.1, (f c).2 :: r.2)
  | _, _ => .ub

/-- transform/apop_mixture.c:309-317. -/
noncomputable def putBack (sizes : List ℕ) (asked : ℝ × List (List ℝ)) (params : List ℝ) : Res (List ℝ) :=
  if asked.1 ≠ 0 then packBack sizes 0 0 asked.2 params else .ok params

/-- transform/apop_mixture.c:318-327: the weights (the first elements) are set to those the EM step found (`em`), at a penalty of their distance
from what was there; or the linear constraint sees to them. Distances and the linear constraint are parameters here (see C52, C88). -/
def doWeights (em : Option (List ℝ)) (dist : List ℝ → List ℝ → ℝ) (lin : List ℝ → ℝ × List ℝ) (count : ℕ) (pen : ℝ) (params : List ℝ) : Res (ℝ × List ℝ) :=
  match em with
  | some nw => do
    let v ← subvec params 0 nw.length
    .ok (pen + dist nw v, nw ++ params.drop nw.length)
  | none => do
    let v ← subvec params 0 count
    .ok (pen + (lin v).1, (lin v).2 ++ params.drop count)

/-- `mixture_constraint`, transform/apop_mixture.c:302-329: the penalty and the parameter vector after it. `w`: the weights of the settings (only their number
matters), `comps`: the components' parameters before. -/
noncomputable def constraint (em : Option (List ℝ)) (dist : List ℝ → List ℝ → ℝ) (lin : List ℝ → ℝ × List ℝ) (checks : List Check)
    (w : List ℝ) (sizes : List ℕ) (comps : List (List ℝ)) (params : List ℝ) : Res (ℝ × List ℝ) := do
  let own ← unpack params w sizes comps
  let asked ← askAll checks own
  let p ← putBack sizes asked params
  doWeights em dist lin checks.length asked.1 p

/-! ## Proofs -/

theorem askAll_eq : ∀ (fs : List (List ℝ → ℝ × List ℝ)) (vs : List (List ℝ)), fs.length = vs.length →
    askAll (fs.map some) vs = .ok ((List.zipWith (fun f v => (f v).1) fs vs).sum, List.zipWith (fun f v => (f v).2) fs vs) := by
  intro fs
  induction fs with
  | nil => intro vs h; cases vs <;> simp_all [askAll]
  | cons f fs ih =>
    intro vs h
    cases vs with
    | nil => simp at h
    | cons v vs =>
      simp only [List.map_cons, askAll, ih vs (by simpa using h), List.zipWith_cons_cons, List.sum_cons]
      rfl

theorem packBack_eq (sizes : List ℕ) : ∀ (vals : List (List ℝ)) (done : List ℕ) (pre post : List ℝ), sizes = done ++ vals.map List.length → (∀ v ∈ vals, v ≠ []) →
    vals.flatten.length ≤ post.length → packBack sizes done.length pre.length vals (pre ++ post) = .ok (pre ++ vals.flatten ++ post.drop vals.flatten.length) := by
  intro vals
  induction vals with
  | nil => intro done pre post _ _ _; simp [packBack]
  | cons v vals ih =>
    intro done pre post hs hv hl
    have hv0 : v.length ≠ 0 := by simpa using hv v (by simp)
    simp only [List.flatten_cons, List.length_append] at hl
    have hr : rd sizes done.length = .ok v.length := by simp [rd, hs]
    have hs' : sizes = (done ++ [v.length]) ++ vals.map List.length := by simp [hs]
    have := ih (done ++ [v.length]) (pre ++ v) (post.drop v.length) hs' (fun x hx => hv x (by simp [hx])) (by rw [List.length_drop]; omega)
    simp only [List.length_append, List.length_cons, List.length_nil, Nat.zero_add] at this
    rw [packBack, hr]
    show (if v.length = 0 then _ else _) = _
    rw [if_neg hv0, if_pos (by simp; omega)]
    have e : (pre ++ post).take pre.length ++ v ++ (pre ++ post).drop (pre.length + v.length) = (pre ++ v) ++ post.drop v.length := by
      simp [List.drop_append]
    rw [e, this]
    simp [List.drop_drop]

theorem putBack_eq (w' : List ℝ) (vals vals' : List (List ℝ)) (h : vals'.map List.length = vals.map List.length) (hv : ∀ v ∈ vals, v ≠ []) (pen : ℝ) (hp : pen ≠ 0) :
    putBack (vals.map List.length) (pen, vals') (w' ++ vals.flatten) = .ok (vals'.flatten ++ (w' ++ vals.flatten).drop vals'.flatten.length) := by
  have hf : vals'.flatten.length = vals.flatten.length := by rw [List.length_flatten, List.length_flatten, h]
  have hv' : ∀ v ∈ vals', v ≠ [] := by
    intro v hm he
    have : 0 ∈ vals'.map List.length := List.mem_map.2 ⟨v, hm, by simp [he]⟩
    rw [h] at this
    obtain ⟨u, hu, h0⟩ := List.mem_map.1 this
    exact hv u hu (List.length_eq_zero_iff.1 h0)
  have := packBack_eq (vals.map List.length) vals' [] [] (w' ++ vals.flatten) (by simp [h]) hv' (by rw [hf, List.length_append]; omega)
  simp only [List.length_nil, List.nil_append] at this
  rw [putBack, if_pos hp, this]

theorem doWeights_lin (dist : List ℝ → List ℝ → ℝ) (lin : List ℝ → ℝ × List ℝ) (count : ℕ) (pen : ℝ) (params : List ℝ) (h : count ≤ params.length) :
    doWeights none dist lin count pen params = .ok (pen + (lin (params.take count)).1, (lin (params.take count)).2 ++ params.drop count) := by
  simp [doWeights, subvec, h]

theorem doWeights_em (nw : List ℝ) (dist : List ℝ → List ℝ → ℝ) (lin : List ℝ → ℝ × List ℝ) (count : ℕ) (pen : ℝ) (params : List ℝ) (h : nw.length ≤ params.length) :
    doWeights (some nw) dist lin count pen params = .ok (pen + dist nw (params.take nw.length), nw ++ params.drop nw.length) := by
  simp [doWeights, subvec, h]

theorem sum_zip_zero : ∀ (fs : List (List ℝ → ℝ × List ℝ)) (vs : List (List ℝ)), (∀ fv ∈ fs.zip vs, (fv.1 fv.2).1 = 0) → (List.zipWith (fun f v => (f v).1) fs vs).sum = 0 := by
  intro fs
  induction fs with
  | nil => simp
  | cons f fs ih =>
    intro vs h
    cases vs with
    | nil => simp
    | cons v vs =>
      have e : (f v).1 = 0 := h (f, v) (by simp)
      rw [List.zipWith_cons_cons, List.sum_cons, e, zero_add]
      exact ih vs fun fv hm => h fv (by simp [hm])

/-- **C210 (nobody objects).** Weights `w'` and values `vals` of components, one weight each, all with parameters and a constraint that their values meet: the mixture's penalty is the linear constraint's for
the weights, which are what it makes of them, and the components' parameters are untouched. -/
theorem C210_fits (dist : List ℝ → List ℝ → ℝ) (lin : List ℝ → ℝ × List ℝ) (fs : List (List ℝ → ℝ × List ℝ)) (w w' : List ℝ) (comps vals : List (List ℝ))
    (hc : comps.map List.length = vals.map List.length) (hv : ∀ v ∈ vals, v ≠ []) (hw : w'.length = w.length) (hn : vals.length = w.length) (hf : fs.length = w.length)
    (h0 : ∀ fv ∈ fs.zip vals, (fv.1 fv.2).1 = 0) :
    constraint none dist lin (fs.map some) w (prep w comps).2 comps (w' ++ vals.flatten) = .ok ((lin w').1, (lin w').2 ++ vals.flatten) := by
  have hu := C81_unpack w comps vals hc hv w' hw
  rw [constraint, hu]
  show (do let asked ← askAll (fs.map some) vals; _) = _
  rw [askAll_eq fs vals (by omega)]
  show (do let p ← putBack _ (_, _) _; _) = _
  rw [sum_zip_zero fs vals h0, putBack, if_neg (by simp)]
  show doWeights none dist lin (fs.map some).length 0 _ = _
  rw [doWeights_lin _ _ _ _ _ (by simp; omega)]
  simp [hf, ← hw]

/-- **C210 (the weights of the EM step).** The same, when weights `nw` were found by an EM step: they take the place of the weights in the vector, at a penalty of the distance. -/
theorem C210_em (dist : List ℝ → List ℝ → ℝ) (lin : List ℝ → ℝ × List ℝ) (fs : List (List ℝ → ℝ × List ℝ)) (w w' nw : List ℝ) (comps vals : List (List ℝ))
    (hc : comps.map List.length = vals.map List.length) (hv : ∀ v ∈ vals, v ≠ []) (hw : w'.length = w.length) (hn : vals.length = w.length) (hf : fs.length = w.length) (hnw : nw.length = w.length)
    (h0 : ∀ fv ∈ fs.zip vals, (fv.1 fv.2).1 = 0) :
    constraint (some nw) dist lin (fs.map some) w (prep w comps).2 comps (w' ++ vals.flatten) = .ok (dist nw w', nw ++ vals.flatten) := by
  have hu := C81_unpack w comps vals hc hv w' hw
  rw [constraint, hu]
  show (do let asked ← askAll (fs.map some) vals; _) = _
  rw [askAll_eq fs vals (by omega)]
  show (do let p ← putBack _ (_, _) _; _) = _
  rw [sum_zip_zero fs vals h0, putBack, if_neg (by simp)]
  show doWeights (some nw) dist lin (fs.map some).length 0 _ = _
  rw [doWeights_em _ _ _ _ _ _ (by simp; omega)]
  simp [hnw, ← hw]

/-- **C210 (somebody objects).** If the components' penalties add up to something: their values as moved go to the front of the vector, over the weights, and the linear constraint is given what is then
in the weights' place. -/
theorem C210_objects (dist : List ℝ → List ℝ → ℝ) (lin : List ℝ → ℝ × List ℝ) (fs : List (List ℝ → ℝ × List ℝ)) (w w' : List ℝ) (comps vals : List (List ℝ))
    (hc : comps.map List.length = vals.map List.length) (hv : ∀ v ∈ vals, v ≠ []) (hw : w'.length = w.length) (hn : vals.length = w.length) (hf : fs.length = w.length)
    (hl : ∀ fv ∈ fs.zip vals, (fv.1 fv.2).2.length = fv.2.length) (h0 : (List.zipWith (fun f v => (f v).1) fs vals).sum ≠ 0) :
    let moved := (List.zipWith (fun f v => (f v).2) fs vals).flatten
    let u := moved ++ (w' ++ vals.flatten).drop moved.length
    constraint none dist lin (fs.map some) w (prep w comps).2 comps (w' ++ vals.flatten) =
      .ok ((List.zipWith (fun f v => (f v).1) fs vals).sum + (lin (u.take w.length)).1, (lin (u.take w.length)).2 ++ u.drop w.length) := by
  intro moved u
  have hu := C81_unpack w comps vals hc hv w' hw
  have hsz : (List.zipWith (fun f v => (f v).2) fs vals).map List.length = vals.map List.length := by
    have : ∀ (fs : List (List ℝ → ℝ × List ℝ)) (vs : List (List ℝ)), fs.length = vs.length → (∀ fv ∈ fs.zip vs, (fv.1 fv.2).2.length = fv.2.length) →
        (List.zipWith (fun f v => (f v).2) fs vs).map List.length = vs.map List.length := by
      intro fs
      induction fs with
      | nil => intro vs h _; cases vs <;> simp_all
      | cons f fs ih =>
        intro vs h hl
        cases vs with
        | nil => simp at h
        | cons v vs =>
          simp only [List.zipWith_cons_cons, List.map_cons]
          rw [ih vs (by simpa using h) fun fv hm => hl fv (by simp [hm]), hl (f, v) (by simp)]
    exact this fs vals (by omega) hl
  rw [constraint, hu]
  show (do let asked ← askAll (fs.map some) vals; _) = _
  rw [askAll_eq fs vals (by omega)]
  show (do let p ← putBack (comps.map List.length) (_, _) _; _) = _
  rw [hc, putBack_eq w' vals _ hsz hv _ h0]
  show doWeights none dist lin (fs.map some).length _ u = _
  have hf2 : moved.length = vals.flatten.length := by rw [List.length_flatten, List.length_flatten, hsz]
  rw [doWeights_lin _ _ _ _ _ (by
    rw [List.length_map, List.length_append, List.length_drop, List.length_append, hf2]; omega), List.length_map, hf]

theorem sum_nonneg_last : ∀ (fs : List (List ℝ → ℝ × List ℝ)) (vs : List (List ℝ)) (f : List ℝ → ℝ × List ℝ) (v : List ℝ), fs.length = vs.length →
    (∀ g ∈ fs, ∀ x, 0 ≤ (g x).1) → 0 < (f v).1 → 0 < (List.zipWith (fun f v => (f v).1) (fs ++ [f]) (vs ++ [v])).sum := by
  intro fs
  induction fs with
  | nil => intro vs f v h _ hp; cases vs <;> simp_all
  | cons g fs ih =>
    intro vs f v h hg hp
    cases vs with
    | nil => simp at h
    | cons u vs =>
      simp only [List.cons_append, List.zipWith_cons_cons, List.sum_cons]
      have := ih vs f v (by simpa using h) (fun g' hm => hg g' (by simp [hm])) hp
      have := hg g (by simp) u
      linarith

/-- A list of the length of a concatenation, cut up. -/
theorem cut : ∀ (ns : List ℕ) (l : List ℝ), l.length = ns.sum → ∃ vs : List (List ℝ), vs.map List.length = ns ∧ vs.flatten = l := by
  intro ns
  induction ns with
  | nil => intro l h; exact ⟨[], rfl, (List.length_eq_zero_iff.1 (by simpa using h)).symm⟩
  | cons n ns ih =>
    intro l h
    simp only [List.sum_cons] at h
    obtain ⟨vs, h1, h2⟩ := ih (l.drop n) (by simp; omega)
    exact ⟨l.take n :: vs, by simp [h1]; omega, by simp [h2]⟩

/-- One call: a last component, of no more parameters than there are components, that objects is left with the values it objects to. -/
theorem stuck_step (dist : List ℝ → List ℝ → ℝ) (lin : List ℝ → ℝ × List ℝ) (fs : List (List ℝ → ℝ × List ℝ)) (f : List ℝ → ℝ × List ℝ) (w : List ℝ) (comps : List (List ℝ))
    (bad p : List ℝ) (hb : bad ≠ []) (hsmall : bad.length ≤ w.length) (hbad : 0 < (f bad).1)
    (hv : ∀ v ∈ comps, v ≠ []) (hn : comps.length + 1 = w.length) (hf : fs.length = comps.length)
    (hpos : ∀ g ∈ fs, ∀ x, 0 ≤ (g x).1) (hlen : ∀ g ∈ fs ++ [f], ∀ x, (g x).2.length = x.length)
    (hlp : ∀ x, 0 ≤ (lin x).1) (hll : ∀ x, (lin x).2.length = x.length)
    (hp : p.length = w.length + comps.flatten.length) :
    ∃ pen q, constraint none dist lin ((fs ++ [f]).map some) w (prep w (comps ++ [bad])).2 (comps ++ [bad]) (p ++ bad) = .ok (pen, q ++ bad) ∧ 0 < pen ∧
      q.length = w.length + comps.flatten.length := by
  obtain ⟨vals, h1, h2⟩ := cut (comps.map List.length) (p.drop w.length) (by rw [← List.length_flatten, List.length_drop]; omega)
  have hvl : vals.length = comps.length := by simpa using congrArg List.length h1
  have hv' : ∀ v ∈ vals ++ [bad], v ≠ [] := by
    intro v hm he
    rcases List.mem_append.1 hm with hm | hm
    · have : 0 ∈ vals.map List.length := List.mem_map.2 ⟨v, hm, by simp [he]⟩
      rw [h1] at this
      obtain ⟨u, hu, h0⟩ := List.mem_map.1 this
      exact hv u hu (List.length_eq_zero_iff.1 h0)
    · exact hb (by simpa [he] using hm)
  have hsum := sum_nonneg_last fs vals f bad (by omega) hpos hbad
  have key := C210_objects dist lin (fs ++ [f]) w (p.take w.length) (comps ++ [bad]) (vals ++ [bad]) (by simp [h1]) hv' (by simp; omega) (by simp; omega) (by simp; omega)
    (by
      intro fv hm
      exact hlen fv.1 (List.of_mem_zip hm).1 fv.2) hsum.ne'
  have hpe : p.take w.length ++ (vals ++ [bad]).flatten = p ++ bad := by
    simp only [List.flatten_append, List.flatten_singleton, h2, ← List.append_assoc, List.take_append_drop]
  simp only [hpe] at key
  have hml : (List.zipWith (fun f v => (f v).2) (fs ++ [f]) (vals ++ [bad])).flatten.length = comps.flatten.length + bad.length := by
    have : ∀ (gs : List (List ℝ → ℝ × List ℝ)) (vs : List (List ℝ)), gs.length = vs.length → (∀ g ∈ gs, ∀ x, (g x).2.length = x.length) →
        (List.zipWith (fun f v => (f v).2) gs vs).flatten.length = vs.flatten.length := by
      intro gs
      induction gs with
      | nil => intro vs h _; cases vs <;> simp_all
      | cons g gs ih =>
        intro vs h hl
        cases vs with
        | nil => simp at h
        | cons v vs =>
          simp only [List.zipWith_cons_cons, List.flatten_cons, List.length_append]
          rw [ih vs (by simpa using h) fun g' hm => hl g' (by simp [hm]), hl g (by simp)]
    rw [this _ _ (by simp; omega) hlen, List.length_flatten, List.length_flatten, List.map_append, h1]
    simp
  generalize hm : (List.zipWith (fun f v => (f v).2) (fs ++ [f]) (vals ++ [bad])).flatten = moved at key hml
  have hd : (p ++ bad).drop moved.length = (p.drop moved.length) ++ bad := by
    rw [List.drop_append_of_le_length]; omega
  rw [hd, ← List.append_assoc] at key
  have hul : (moved ++ p.drop moved.length).length = w.length + comps.flatten.length := by
    rw [List.length_append, List.length_drop]; omega
  generalize moved ++ p.drop moved.length = u at key hul
  rw [List.take_append_of_le_length (by omega), List.drop_append_of_le_length (by omega), ← List.append_assoc] at key
  refine ⟨_, _, key, by have := hlp (u.take w.length); linarith, ?_⟩
  rw [List.length_append, hll, List.length_take, List.length_drop]; omega

/-- Asking again and again, with the parameters as they were left. -/
noncomputable def askAgain (dist : List ℝ → List ℝ → ℝ) (lin : List ℝ → ℝ × List ℝ) (checks : List Check) (w : List ℝ) (sizes : List ℕ) (comps : List (List ℝ)) :
    ℕ → List ℝ → Res (ℝ × List ℝ)
  | 0, p => constraint none dist lin checks w sizes comps p
  | n + 1, p => do
    let r ← constraint none dist lin checks w sizes comps p
    askAgain dist lin checks w sizes comps n r.2

/-- **C210 (the values are never put right), refuted.** "After its constraint, the parameters are such that it doesn't object": a last component with no more parameters than there are components that
objects to its parameters objects for ever, however often the mixture is asked and has moved its parameters: it is left with the values it objects to. -/
theorem C210_stuck_refuted (dist : List ℝ → List ℝ → ℝ) (lin : List ℝ → ℝ × List ℝ) (fs : List (List ℝ → ℝ × List ℝ)) (f : List ℝ → ℝ × List ℝ) (w : List ℝ) (comps : List (List ℝ))
    (bad : List ℝ) (hb : bad ≠ []) (hsmall : bad.length ≤ w.length) (hbad : 0 < (f bad).1)
    (hv : ∀ v ∈ comps, v ≠ []) (hn : comps.length + 1 = w.length) (hf : fs.length = comps.length)
    (hpos : ∀ g ∈ fs, ∀ x, 0 ≤ (g x).1) (hlen : ∀ g ∈ fs ++ [f], ∀ x, (g x).2.length = x.length)
    (hlp : ∀ x, 0 ≤ (lin x).1) (hll : ∀ x, (lin x).2.length = x.length) (n : ℕ) (p : List ℝ)
    (hp : p.length = w.length + comps.flatten.length) :
    ∃ pen q, askAgain dist lin ((fs ++ [f]).map some) w (prep w (comps ++ [bad])).2 (comps ++ [bad]) n (p ++ bad) = .ok (pen, q ++ bad) ∧ 0 < pen := by
  induction n generalizing p with
  | zero =>
    obtain ⟨pen, q, h, hp, -⟩ := stuck_step dist lin fs f w comps bad p hb hsmall hbad hv hn hf hpos hlen hlp hll hp
    exact ⟨pen, q, h, hp⟩
  | succ n ih =>
    obtain ⟨pen, q, h, -, hq⟩ := stuck_step dist lin fs f w comps bad p hb hsmall hbad hv hn hf hpos hlen hlp hll hp
    rw [askAgain, h]
    exact ih q hq

/-- **C210 (a component without a constraint), refuted.** A component that has no constraint (as `apop_uniform`): its constraint is called all the same. -/
theorem C210_none_refuted (em : Option (List ℝ)) (dist : List ℝ → List ℝ → ℝ) (lin : List ℝ → ℝ × List ℝ) (pre post : List Check) (w w' : List ℝ) (comps vals : List (List ℝ))
    (hc : comps.map List.length = vals.map List.length) (hv : ∀ v ∈ vals, v ≠ []) (hw : w'.length = w.length) (hn : vals.length = pre.length + 1 + post.length) :
    constraint em dist lin (pre ++ none :: post) w (prep w comps).2 comps (w' ++ vals.flatten) = .ub := by
  have hu := C81_unpack w comps vals hc hv w' hw
  have : ∀ (pre : List Check) (vs : List (List ℝ)), vs.length = pre.length + 1 + post.length → askAll (pre ++ none :: post) vs = .ub := by
    intro pre
    induction pre with
    | nil => intro vs h; cases vs <;> simp_all [askAll]
    | cons g pre ih =>
      intro vs h
      cases vs with
      | nil => simp only [List.length_nil, List.length_cons] at h; omega
      | cons v vs =>
        cases g with
        | none => rfl
        | some g =>
          rw [List.cons_append, askAll, ih vs (by simp at h ⊢; omega)]
          rfl
  rw [constraint, hu]
  show (do let asked ← askAll _ vals; _) = _
  rw [this pre vals hn]
  rfl

/-! Cases that meet the hypotheses: two normals with the deviations to be at least one. -/

/-- A constraint for (mean, deviation). -/
noncomputable def devAtLeastOne : List ℝ → ℝ × List ℝ
  | [m, d] => if d < 1 then (1 - d, [m, 1]) else (0, [m, d])
  | l => (0, l)

example : constraint none (fun _ _ => 0) (fun l => (0, l)) [some devAtLeastOne, some devAtLeastOne] [1, 1] (prep [1, 1] [[0, 0], [0, 0]]).2 [[0, 0], [0, 0]] ([1, 2] ++ [[3, 4], [5, 6]].flatten) =
    .ok (0, [1, 2, 3, 4, 5, 6]) := by
  have := C210_fits (fun _ _ => 0) (fun l => (0, l)) [devAtLeastOne, devAtLeastOne] [1, 1] [1, 2] [[0, 0], [0, 0]] [[3, 4], [5, 6]] rfl (by simp) rfl rfl rfl
    (by norm_num [devAtLeastOne])
  simpa using this

/-- The second one's deviation of one half stays; the weights become the first's parameters. -/
example : constraint none (fun _ _ => 0) (fun l => (0, l)) [some devAtLeastOne, some devAtLeastOne] [1, 1] (prep [1, 1] [[0, 0], [0, 0]]).2 [[0, 0], [0, 0]] ([1, 2] ++ [[3, 4], [5, 1 / 2]].flatten) =
    .ok (1 / 2, [3, 4, 5, 1, 5, 1 / 2]) := by
  have := C210_objects (fun _ _ => 0) (fun l => (0, l)) [devAtLeastOne, devAtLeastOne] [1, 1] [1, 2] [[0, 0], [0, 0]] [[3, 4], [5, 1 / 2]] rfl (by simp) rfl rfl rfl
    (by simp [devAtLeastOne]; norm_num) (by norm_num [devAtLeastOne])
  norm_num [devAtLeastOne] at this ⊢
  exact this

example (p : List ℝ) (n : ℕ) (hp : p.length = 4) : ∃ pen q, askAgain (fun _ _ => 0) (fun l => (0, l)) [some devAtLeastOne, some devAtLeastOne] [1, 1] [2, 2] [[0, 1], [5, 1 / 2]] n (p ++ [5, 1 / 2]) = .ok (pen, q ++ [5, 1 / 2]) ∧ 0 < pen := by
  have hpos : ∀ x, 0 ≤ (devAtLeastOne x).1 := by
    intro x
    unfold devAtLeastOne
    split
    · split
      · simp only; linarith
      · simp
    · simp
  have hlen : ∀ x, (devAtLeastOne x).2.length = x.length := by
    intro x
    unfold devAtLeastOne
    split
    · split <;> rfl
    · rfl
  exact C210_stuck_refuted (fun _ _ => 0) (fun l => (0, l)) [devAtLeastOne] devAtLeastOne [1, 1] [[0, 1]] [5, 1 / 2] (by simp) (by simp) (by norm_num [devAtLeastOne]) (by simp) rfl rfl
    (by simpa using hpos) (by simpa using hlen) (by simp) (by simp) n p (by simpa using hp)

end Apop.Mix
