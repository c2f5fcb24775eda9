import Verif.Settings.Model

/-! # C24: settings groups are a map from names to groups; C44: copying a model copies them -/

namespace Apop.Settings
variable {γ : Type}

/-! ### the array and its live part -/

/-- The live entries of an array: everything before an entry with an empty name. -/
structure Arr (es L : List (Entry γ)) : Prop where
  shape : ∃ s junk, es = L ++ s :: junk ∧ s.name = []
  named : ∀ e ∈ L, e.name ≠ []

theorem scan_arr : ∀ (L : List (Entry γ)) (es : List (Entry γ)), Arr es L → scan es = .ok L
  | [], es, h => by
    obtain ⟨⟨s, junk, rfl, hs⟩, -⟩ := h
    simp [scan, hs]
  | e :: L, es, h => by
    obtain ⟨⟨s, junk, rfl, hs⟩, hn⟩ := h
    have := scan_arr L (L ++ s :: junk) ⟨⟨s, junk, rfl, hs⟩, fun e he => hn e (by simp [he])⟩
    simp [scan, hn e (by simp), this]

theorem lookup_arr (h : UInt64) : ∀ (L : List (Entry γ)) (es : List (Entry γ)), Arr es L →
    lookup h es = .ok ((L.find? (fun e => e.hash = h)).bind (·.group))
  | [], es, ha => by
    obtain ⟨⟨s, junk, rfl, hs⟩, -⟩ := ha
    simp [lookup, hs]
  | e :: L, es, ha => by
    obtain ⟨⟨s, junk, rfl, hs⟩, hn⟩ := ha
    have := lookup_arr h L (L ++ s :: junk) ⟨⟨s, junk, rfl, hs⟩, fun e he => hn e (by simp [he])⟩
    simp only [List.cons_append, lookup, hn e (by simp), if_false]
    by_cases e1 : h = e.hash
    · rw [if_pos e1, List.find?_cons_of_pos (by simp [e1])]; rfl
    · rw [if_neg e1, List.find?_cons_of_neg (by simpa using fun h' => e1 h'.symm)]; exact this

theorem shift_eq : ∀ (k j : Nat) (A B C : List (Entry γ)) (e : Entry γ), B.length = k → A.length + 1 = j →
    shift k j (A ++ e :: (B ++ C)) = .ok (A ++ (B ++ ((e :: B).getLast (by simp)) :: C))
  | 0, j, A, B, C, e, hb, _ => by
    have : B = [] := List.eq_nil_of_length_eq_zero hb
    subst this; simp [shift]
  | k + 1, j, A, B, C, e, hb, ha => by
    cases B with
    | nil => simp at hb
    | cons b B =>
      have h1 : rd (A ++ e :: ((b :: B) ++ C)) j = .ok b := by
        rw [rd_eq_ok, List.getElem?_append_right (by omega), show j - A.length = 1 by omega]; rfl
      have h2 : wr (A ++ e :: ((b :: B) ++ C)) (j - 1) b = .ok ((A ++ [b]) ++ b :: (B ++ C)) := by
        rw [wr_of_lt (by simp; omega), List.set_append_right _ _ (by omega), show j - 1 - A.length = 0 by omega]
        simp
      simp only [shift, h1, Res.bind_ok, h2]
      rw [shift_eq k (j + 1) (A ++ [b]) B C b (by simpa using hb) (by simp; omega)]
      cases B with
      | nil => simp
      | cons c B => simp

/-- What the removal loop does: `P` has been passed, `Q` is still to be looked at. -/
theorem removeLoop_eq (h : UInt64) (ct : Nat) : ∀ (fuel : Nat) (P Q junk : List (Entry γ)) (s : Entry γ) (freed : List γ),
    s.name = [] → (∀ e ∈ Q, e.name ≠ []) → Q.length < fuel →
    P.length + Q.length ≤ ct → ct < P.length + (Q.length + (junk.length + 1)) →
    ∃ junk', removeLoop h ct fuel P.length (P ++ (Q ++ s :: junk)) freed =
      .ok (P ++ (Q.filter (fun e => e.hash ≠ h) ++ s :: junk'), freed ++ (Q.filter (fun e => e.hash = h)).flatMap (·.group.toList)) := by
  intro fuel
  induction fuel with
  | zero => intro P Q junk s freed _ _ h; omega
  | succ fuel ih =>
    intro P Q junk s freed hs hQ hf h1 h2
    cases Q with
    | nil =>
      refine ⟨junk, ?_⟩
      have : rd (P ++ ([] ++ s :: junk)) P.length = .ok s := by
        rw [rd_eq_ok, List.getElem?_append_right (Nat.le_refl _)]; simp
      simp [removeLoop, rd, hs]
    | cons q Q =>
      have hrd : rd (P ++ (q :: Q ++ s :: junk)) P.length = .ok q := by
        rw [rd_eq_ok, List.getElem?_append_right (Nat.le_refl _)]; simp
      simp only [List.length_cons] at h1 h2 hf
      simp only [removeLoop, hrd, Res.bind_ok, if_neg (hQ q (by simp))]
      by_cases hh : q.hash = h
      · rw [if_pos hh]
        let d := ct - (P.length + 1 + Q.length)
        have hb : (Q ++ s :: junk.take d).length = ct - P.length := by
          simp only [List.length_append, List.length_cons, List.length_take, d]; omega
        have hsplit : P ++ (q :: Q ++ s :: junk) = P ++ q :: ((Q ++ s :: junk.take d) ++ junk.drop d) := by
          simp [List.take_append_drop]
        rw [hsplit, shift_eq (ct - P.length) (P.length + 1) P (Q ++ s :: junk.take d) (junk.drop d) q hb rfl, Res.bind_ok]
        generalize (q :: (Q ++ s :: junk.take d)).getLast _ = last
        have e : P ++ ((Q ++ s :: junk.take d) ++ last :: junk.drop d) = P ++ (Q ++ s :: (junk.take d ++ last :: junk.drop d)) := by simp
        rw [e]
        obtain ⟨junk', j⟩ := ih P Q (junk.take d ++ last :: junk.drop d) s (freed ++ q.group.toList) hs
          (fun e he => hQ e (by simp [he])) (by omega) (by omega) (by
            simp only [List.length_append, List.length_cons, List.length_take, List.length_drop]; omega)
        refine ⟨junk', ?_⟩
        rw [j]
        simp [List.filter_cons, hh]
      · rw [if_neg hh]
        obtain ⟨junk', j⟩ := ih (P ++ [q]) Q junk s freed hs (fun e he => hQ e (by simp [he])) (by omega)
          (by simp; omega) (by simp; omega)
        refine ⟨junk', ?_⟩
        simp only [List.length_append, List.length_singleton, List.append_assoc, List.singleton_append] at j
        rw [show P ++ (q :: Q ++ s :: junk) = P ++ q :: (Q ++ s :: junk) by simp, j]
        simp [List.filter_cons, hh]

/-! ### one model and the map it stands for -/

/-- The live entries of a model: none if there is no array. -/
def Live (m : Mod γ) (L : List (Entry γ)) : Prop :=
  match m.settings with
  | none => L = []
  | some es => Arr es L

/-- Specification: the live entries `L` stand for the map `f` on the names satisfying `U`: every entry holds a group under a name of `U`,
and looking a name up by its hash gives the map's value. -/
structure Rep (U : CStr → Prop) (m : Mod γ) (f : CStr → Option γ) : Prop where
  live : ∃ L, Live m L ∧ L.Pairwise (fun a b => a.hash ≠ b.hash) ∧
    (∀ e ∈ L, ∃ t g, U t ∧ e.name = t.take 100 ∧ e.hash = djb2 t ∧ e.group = some g ∧ f t = some g) ∧
    (∀ t g, U t → f t = some g → ∃ e ∈ L, e.hash = djb2 t)

/-- The names a program uses: none is empty, no two have the same hash. -/
structure Usable (U : CStr → Prop) : Prop where
  nonempty : ∀ t, U t → t ≠ []
  inj : ∀ t u, U t → U u → djb2 t = djb2 u → t = u

theorem find_rep {U : CStr → Prop} (hU : Usable U) {L : List (Entry γ)} {f : CStr → Option γ}
    (h1 : ∀ e ∈ L, ∃ t g, U t ∧ e.name = t.take 100 ∧ e.hash = djb2 t ∧ e.group = some g ∧ f t = some g)
    (h2 : ∀ t g, U t → f t = some g → ∃ e ∈ L, e.hash = djb2 t) (t : CStr) (ht : U t) :
    (L.find? (fun e => e.hash = djb2 t)).bind (·.group) = f t := by
  cases hf : L.find? (fun e => decide (e.hash = djb2 t)) with
  | none =>
    cases hft : f t with
    | none => rfl
    | some g =>
      obtain ⟨e, he, hh⟩ := h2 t g ht hft
      have := List.find?_eq_none.1 hf e he
      simp [hh] at this
  | some e =>
    have hm := List.mem_of_find?_eq_some hf
    have hp := List.find?_some hf
    simp only [decide_eq_true_eq] at hp
    obtain ⟨u, g, hu, -, hh, hg, hfu⟩ := h1 e hm
    have := hU.inj u t hu ht (by rw [← hh, hp])
    subst this
    rw [hfu]; simpa using hg

theorem get_rep {U : CStr → Prop} (hU : Usable U) {m : Mod γ} {f : CStr → Option γ} (h : Rep U m f) (t : CStr) (ht : U t) :
    get m t = .ok (f t) := by
  obtain ⟨L, hl, -, h1, h2⟩ := h.live
  have := find_rep hU h1 h2 t ht
  unfold get
  unfold Live at hl
  cases hs : m.settings with
  | none =>
    rw [hs] at hl; simp only at hl
    rw [hl] at this
    simpa using this
  | some es =>
    rw [hs] at hl
    simp only []
    rw [lookup_arr (djb2 t) L es hl, this]

theorem rep_none (U : CStr → Prop) (e : Option Char) : Rep U (⟨none, e⟩ : Mod γ) (fun _ => none) := by
  refine ⟨[], rfl, by simp, by simp, ?_⟩
  intro t g _ h; cases h

theorem find_filter_ne {L : List (Entry γ)} (h : UInt64) (hp : L.Pairwise (fun a b => a.hash ≠ b.hash)) :
    (L.filter (fun e => e.hash = h)) = (L.find? (fun e => e.hash = h)).toList := by
  induction L with
  | nil => rfl
  | cons e L ih =>
    obtain ⟨p1, p2⟩ := List.pairwise_cons.1 hp
    by_cases he : e.hash = h
    · have : L.filter (fun e => decide (e.hash = h)) = [] := by
        rw [List.filter_eq_nil_iff]
        intro a ha hh
        simp only [decide_eq_true_eq] at hh
        exact p1 a ha (he.trans hh.symm)
      rw [List.find?_cons_of_pos (by simpa using he), List.filter_cons_of_pos (by simpa using he), this]; rfl
    · rw [List.find?_cons_of_neg (by simpa using he), List.filter_cons_of_neg (by simpa using he)]
      exact ih p2

/-- The map after setting one name. -/
def upd (f : CStr → Option γ) (t : CStr) (v : Option γ) : CStr → Option γ := fun u => if u = t then v else f u

/-- Removing: the model stands for the map without the name; exactly the group held there is freed. -/
theorem remove_rep {U : CStr → Prop} (hU : Usable U) {m : Mod γ} {f : CStr → Option γ} (h : Rep U m f) (t : CStr) (ht : U t) :
    ∃ m', remove m t = .ok (m', (f t).toList) ∧ Rep U m' (upd f t none) ∧ m'.error = m.error ∧
      (m'.settings = none ↔ m.settings = none) := by
  obtain ⟨L, hl, hp, h1, h2⟩ := h.live
  have hfind := find_rep hU h1 h2 t ht
  unfold Live at hl
  cases hs : m.settings with
  | none =>
    rw [hs] at hl; simp only at hl
    subst hl
    have hft : f t = none := by simpa using hfind.symm
    refine ⟨m, by simp [remove, hs, hft], ⟨[], by simp [Live, hs], by simp, by simp, ?_⟩, rfl, by simp [hs]⟩
    intro u g hu hg
    unfold upd at hg
    split at hg
    · cases hg
    · obtain ⟨e, he, -⟩ := h2 u g hu hg; cases he
  | some es =>
    rw [hs] at hl; simp only at hl
    have hcount : count m = .ok L.length := by simp [count, hs, scan_arr L es hl]
    obtain ⟨⟨s, junk, hes, hsn⟩, hnm⟩ := hl
    obtain ⟨junk', hj⟩ := removeLoop_eq (djb2 t) L.length (2 * es.length + 1) [] L junk s [] hsn hnm
      (by rw [hes]; simp; omega) (by simp) (by simp only [List.length_nil]; omega)
    simp only [List.nil_append, List.length_nil] at hj
    refine ⟨{ m with settings := some (L.filter (fun e => e.hash ≠ djb2 t) ++ s :: junk') }, ?_, ⟨L.filter (fun e => e.hash ≠ djb2 t), ?_, ?_, ?_, ?_⟩, rfl, by simp⟩
    · simp only [remove, hs, hcount, Res.bind_ok]
      rw [hes] at hj ⊢
      rw [hj, Res.bind_ok, find_filter_ne _ hp, ← hfind]
      cases L.find? (fun e => decide (e.hash = djb2 t)) with
      | none => rfl
      | some e => simp
    · simp only [Live]
      exact ⟨⟨s, junk', rfl, hsn⟩, fun e he => hnm e (List.mem_filter.1 he).1⟩
    · exact hp.filter _
    · intro e he
      obtain ⟨hm, hne⟩ := List.mem_filter.1 he
      obtain ⟨u, g, hu, a, b, c, d⟩ := h1 e hm
      refine ⟨u, g, hu, a, b, c, ?_⟩
      unfold upd
      rw [if_neg]
      · exact d
      · intro e'; subst e'; simp [b] at hne
    · intro u g hu hg
      unfold upd at hg
      split at hg
      · cases hg
      · next hut =>
        obtain ⟨e, he, hh⟩ := h2 u g hu hg
        refine ⟨e, List.mem_filter.2 ⟨he, ?_⟩, hh⟩
        simp only [ne_eq, decide_not, Bool.not_eq_true', decide_eq_false_iff_not]
        intro hx
        exact hut (hU.inj u t hu ht (by rw [← hh, hx]))

theorem add_rep {U : CStr → Prop} (hU : Usable U) {m : Mod γ} {f : CStr → Option γ} (h : Rep U m f) (t : CStr) (ht : U t) (g : γ) :
    ∃ m', add m t g = .ok (m', (f t).toList) ∧ Rep U m' (upd f t (some g)) ∧ m'.error = m.error ∧ m'.settings ≠ none := by
  -- after the optional removal, the name is not in the map
  have step1 : ∃ m1, (if (f t).isSome then remove m t else .ok (m, []) : Res (Mod γ × List γ)) = .ok (m1, (f t).toList) ∧
      Rep U m1 (upd f t none) ∧ m1.error = m.error := by
    cases hft : f t with
    | none =>
      refine ⟨m, rfl, ?_, rfl⟩
      have : upd f t none = f := by
        funext u; unfold upd; split
        · next e => rw [e, hft]
        · rfl
      rw [this]; exact h
    | some g0 =>
      obtain ⟨m1, a, b, c, -⟩ := remove_rep hU h t ht
      exact ⟨m1, by rw [← hft]; simpa [hft] using a, b, c⟩
  obtain ⟨m1, e1, r1, er⟩ := step1
  obtain ⟨L, hl, hp, h1, h2⟩ := r1.live
  have hnew : ∀ e ∈ L, e.hash ≠ djb2 t := by
    intro e he hh
    obtain ⟨u, g', hu, -, b, -, d⟩ := h1 e he
    have : u = t := hU.inj u t hu ht (by rw [← b, hh])
    unfold upd at d
    rw [if_pos this] at d; cases d
  have hcount : count m1 = .ok L.length ∧ (m1.settings.getD []).take L.length = L ∧ ∀ e ∈ L, e.name ≠ [] := by
    unfold Live at hl
    cases hs : m1.settings with
    | none =>
      rw [hs] at hl; simp only at hl; subst hl
      simp [count, hs]
    | some es =>
      rw [hs] at hl; simp only at hl
      refine ⟨by simp [count, hs, scan_arr L es hl], ?_, hl.named⟩
      obtain ⟨⟨s, junk, rfl, -⟩, -⟩ := hl
      simp
  obtain ⟨c1, c2, c3⟩ := hcount
  refine ⟨{ m1 with settings := some (L ++ [⟨t.take 100, djb2 t, some g⟩, sentinel]) }, ?_, ⟨L ++ [⟨t.take 100, djb2 t, some g⟩], ?_, ?_, ?_, ?_⟩, er, by simp⟩
  · simp only [add, get_rep hU h t ht, Res.bind_ok, e1, c1, c2]
  · simp only [Live]
    refine ⟨⟨sentinel, [], by simp, rfl⟩, ?_⟩
    intro e he
    rcases List.mem_append.1 he with h' | h'
    · exact c3 e h'
    · simp only [List.mem_singleton] at h'; subst h'
      simp [hU.nonempty t ht]
  · rw [List.pairwise_append]
    refine ⟨hp, by simp, ?_⟩
    intro a ha b hb
    simp only [List.mem_singleton] at hb; subst hb
    exact hnew a ha
  · intro e he
    rcases List.mem_append.1 he with h' | h'
    · obtain ⟨u, g', hu, a, b, c, d⟩ := h1 e h'
      refine ⟨u, g', hu, a, b, c, ?_⟩
      unfold upd at d ⊢
      split at d
      · cases d
      · next hut => rw [if_neg hut]; exact d
    · simp only [List.mem_singleton] at h'; subst h'
      exact ⟨t, g, ht, rfl, rfl, rfl, by simp [upd]⟩
  · intro u g' hu hg
    unfold upd at hg
    split at hg
    · next e => subst e; exact ⟨_, List.mem_append_right _ (List.mem_singleton.2 rfl), rfl⟩
    · next hut =>
      obtain ⟨e, he, hh⟩ := h2 u g' hu (by unfold upd; rw [if_neg hut]; exact hg)
      exact ⟨e, List.mem_append_left _ he, hh⟩

/-! ### C24 -/

/-- Specification: the program's models as maps from names to groups, and the groups freed, in
order. -/
structure Spec (γ : Type) where
  map : Nat → CStr → Option γ
  freed : List γ

/-- Specification of one call: adding replaces (and frees) what the name held; removing frees it; copying a group that
the source has is adding a copy; copying one it does not have changes no map. -/
def specStep (cp : γ → γ) (s : Spec γ) : Op γ → Spec γ
  | .add m t g => ⟨fun j => if j = m then upd (s.map m) t (some g) else s.map j, s.freed ++ (s.map m t).toList⟩
  | .rm m t => ⟨fun j => if j = m then upd (s.map m) t none else s.map j, s.freed ++ (s.map m t).toList⟩
  | .copy o i t => match s.map i t with
    | none => s
    | some g => ⟨fun j => if j = o then upd (s.map o) t (some (cp g)) else s.map j, s.freed ++ (s.map o t).toList⟩

/-- The name a call uses. -/
def Op.name : Op γ → CStr
  | .add _ t _ => t
  | .rm _ t => t
  | .copy _ _ t => t

theorem step_rep {U : CStr → Prop} (hU : Usable U) (cp : γ → γ) (w : World γ) (s : Spec γ)
    (h : ∀ i, Rep U (w.models i) (s.map i)) (hf : w.freed = s.freed) (o : Op γ) (ho : U o.name) :
    ∃ w', step cp w o = .ok w' ∧ (∀ i, Rep U (w'.models i) ((specStep cp s o).map i)) ∧ w'.freed = (specStep cp s o).freed := by
  have put : ∀ (i : Nat) (m' : Mod γ) (f' : CStr → Option γ) (fr : List γ), Rep U m' f' →
      (∀ j, Rep U ((w.set i m' fr).models j) (if j = i then f' else s.map j)) ∧ (w.set i m' fr).freed = s.freed ++ fr := by
    intro i m' f' fr hm
    refine ⟨?_, by simp [World.set, hf]⟩
    intro j
    by_cases e : j = i
    · simp [World.set, e, hm]
    · simp [World.set, e, h j]
  cases o with
  | add m t g =>
    obtain ⟨m', a, b, -, -⟩ := add_rep hU (h m) t ho g
    refine ⟨w.set m m' (s.map m t).toList, by simp only [step, a, Res.bind_ok], ?_⟩
    exact put m m' _ _ b
  | rm m t =>
    obtain ⟨m', a, b, -, -⟩ := remove_rep hU (h m) t ho
    refine ⟨w.set m m' (s.map m t).toList, by simp only [step, a, Res.bind_ok], ?_⟩
    exact put m m' _ _ b
  | copy o i t =>
    have hne : t ≠ [] := hU.nonempty t ho
    have same : ∀ (m' : Mod γ), m'.settings = (w.models o).settings →
        (∀ j, Rep U ((w.set o m' []).models j) (s.map j)) ∧ (w.set o m' []).freed = s.freed := by
      intro m' he
      have hm : Rep U m' (s.map o) := by
        obtain ⟨L, hl, r⟩ := (h o).live
        exact ⟨L, by unfold Live at *; rw [he]; exact hl, r⟩
      obtain ⟨p1, p2⟩ := put o m' (s.map o) [] hm
      refine ⟨fun j => ?_, by simpa using p2⟩
      have := p1 j
      by_cases e : j = o
      · subst e; simpa using this
      · simpa [e] using this
    simp only [step, copyGroup, if_neg hne]
    by_cases hs : (w.models i).settings = none
    · rw [if_pos hs]
      have hnone : s.map i t = none := by
        have := get_rep hU (h i) t ho
        simpa [get, hs] using this.symm
      simp only [Res.bind_ok, specStep, hnone]
      exact ⟨_, rfl, same _ rfl⟩
    · rw [if_neg hs, get_rep hU (h i) t ho]
      simp only [Res.bind_ok]
      cases hg : s.map i t with
      | none =>
        simp only [Res.bind_ok, specStep, hg]
        exact ⟨_, rfl, same _ rfl⟩
      | some g =>
        obtain ⟨m', a, b, -, -⟩ := add_rep hU (h o) t ho (cp g)
        refine ⟨w.set o m' (s.map o t).toList, by simp only [a, Res.bind_ok], ?_⟩
        simp only [specStep, hg]
        exact put o m' _ _ b

/-- **C24.** Take any set `U` of nonempty names of which no two have the same hash, and any history of
adding, removing and copying groups under these names, on any number of models, from models without settings. No
call has undefined behaviour, getting a group by name returns what the map semantics says (the most
recently added or copied group that was not removed, NULL if there is none), for every model and name, and the groups
freed are exactly those replaced or removed. -/
theorem C24_map {U : CStr → Prop} (hU : Usable U) (cp : γ → γ) (ops : List (Op γ)) (hops : ∀ o ∈ ops, U o.name) :
    ∃ w, run cp ⟨fun _ => {}, []⟩ ops = .ok w ∧
      (∀ i t, U t → get (w.models i) t = .ok ((ops.foldl (specStep cp) ⟨fun _ _ => none, []⟩).map i t)) ∧
      w.freed = (ops.foldl (specStep cp) ⟨fun _ _ => none, []⟩).freed := by
  have main : ∀ (ops : List (Op γ)) (w : World γ) (s : Spec γ), (∀ o ∈ ops, U o.name) → (∀ i, Rep U (w.models i) (s.map i)) → w.freed = s.freed →
      ∃ w', run cp w ops = .ok w' ∧ (∀ i, Rep U (w'.models i) ((ops.foldl (specStep cp) s).map i)) ∧
        w'.freed = (ops.foldl (specStep cp) s).freed := by
    intro ops
    induction ops with
    | nil => intro w s _ h hf; exact ⟨w, rfl, h, hf⟩
    | cons o ops ih =>
      intro w s ho h hf
      obtain ⟨w1, a, b, c⟩ := step_rep hU cp w s h hf o (ho o (by simp))
      obtain ⟨w2, a', b', c'⟩ := ih w1 _ (fun o h => ho o (by simp [h])) b c
      exact ⟨w2, by simp only [run, a, Res.bind_ok, a'], b', c'⟩
  obtain ⟨w, a, b, c⟩ := main ops ⟨fun _ => {}, []⟩ ⟨fun _ _ => none, []⟩ hops (fun i => rep_none U none) rfl
  exact ⟨w, a, fun i t ht => get_rep hU (b i) t ht, c⟩

/-- Adding returns to the map with that name set and others as before (the statement of `specStep`, spelled out for
one call on any reachable model). -/
theorem C24_add_then_get {U : CStr → Prop} (hU : Usable U) {m : Mod γ} {f : CStr → Option γ} (h : Rep U m f)
    (t u : CStr) (ht : U t) (hu : U u) (g : γ) :
    ∃ m' fr, add m t g = .ok (m', fr) ∧ get m' t = .ok (some g) ∧ (u ≠ t → get m' u = get m u) := by
  obtain ⟨m', a, b, -, -⟩ := add_rep hU h t ht g
  refine ⟨m', _, a, by rw [get_rep hU b t ht]; simp [upd], ?_⟩
  intro hne
  rw [get_rep hU b u hu, get_rep hU h u hu]
  simp [upd, hne]

/-- Two of the library's own group names are usable together. -/
theorem usable_ex : Usable (fun t => t = str "apop_mle" ∨ t = str "apop_mcmc") := by
  have hne : djb2 (str "apop_mle") ≠ djb2 (str "apop_mcmc") := by decide +kernel
  constructor
  · rintro t (rfl | rfl) <;> decide +kernel
  · rintro t u (rfl | rfl) (rfl | rfl) h
    · rfl
    · exact absurd h hne
    · exact absurd h.symm hne
    · rfl

/-- Non-vacuity: a history with replacement, removal and copying. -/
example : ∃ w, run (fun n : Nat => n + 100) ⟨fun _ => {}, []⟩
    [.add 0 (str "apop_mle") 1, .add 0 (str "apop_mcmc") 2, .add 0 (str "apop_mle") 3, .copy 1 0 (str "apop_mcmc"), .rm 0 (str "apop_mcmc")] = .ok w ∧
    get (w.models 0) (str "apop_mle") = .ok (some 3) ∧ get (w.models 1) (str "apop_mcmc") = .ok (some 102) ∧ w.freed = [1, 2] := by
  have h := C24_map usable_ex (fun n : Nat => n + 100)
    [.add 0 (str "apop_mle") 1, .add 0 (str "apop_mcmc") 2, .add 0 (str "apop_mle") 3, .copy 1 0 (str "apop_mcmc"), .rm 0 (str "apop_mcmc")]
    (by intro o ho; simp only [List.mem_cons, List.not_mem_nil, or_false] at ho; rcases ho with rfl | rfl | rfl | rfl | rfl <;> simp [Op.name])
  obtain ⟨w, a, b, c⟩ := h
  refine ⟨w, a, ?_, ?_, ?_⟩
  · rw [b 0 _ (Or.inl rfl)]; decide +kernel
  · rw [b 1 _ (Or.inr rfl)]; decide +kernel
  · rw [c]; decide +kernel

/-- **C24 fails for names with equal hashes**: after adding "BY", getting "Az" returns the group of "BY", and adding "Az"
frees it. -/
theorem C24_hash_collision_refuted :
    ∃ m fr, add ({} : Mod Nat) (str "BY") 1 = .ok (m, fr) ∧ get m (str "Az") = .ok (some 1) ∧
      ∃ m' fr', add m (str "Az") 2 = .ok (m', fr') ∧ fr' = [1] ∧ get m' (str "BY") = .ok (some 2) := by
  refine ⟨⟨some [⟨str "BY", djb2 (str "BY"), some 1⟩, sentinel], none⟩, [], ?_, ?_, ⟨some [⟨str "Az", djb2 (str "Az"), some 2⟩, sentinel], none⟩, [1], ?_, rfl, ?_⟩ <;> decide +kernel

/-- **Copying a group from a model that has no settings at all** does not set the documented error 's'; from a model
that has other groups it does. -/
theorem C24_copy_missing (cp : γ → γ) (outm inm : Mod γ) (t : CStr) (ht : t ≠ []) :
    (inm.settings = none → copyGroup cp outm inm t = .ok (outm, [])) ∧
    (∀ U f, Usable U → Rep U inm f → U t → f t = none → inm.settings ≠ none →
      copyGroup cp outm inm t = .ok ({ outm with error := some 's' }, [])) := by
  constructor
  · intro h; simp [copyGroup, ht, h]
  · intro U f hU h hu hf hs
    simp [copyGroup, ht, hs, get_rep hU h t hu, hf]

/-! ### C44: copying a model -/

theorem copyLoop_rep {U : CStr → Prop} (hU : Usable U) (cp : γ → γ) (inm : Mod γ) (f : CStr → Option γ) (hr : Rep U inm f)
    (hs : inm.settings ≠ none) (hlen : ∀ t, U t → t.length ≤ 100) :
    ∀ (L es : List (Entry γ)) (out : Mod γ) (done : List (Entry γ)), Arr es L →
      (∀ e ∈ done ++ L, ∃ t g, U t ∧ e.name = t.take 100 ∧ e.hash = djb2 t ∧ e.group = some g ∧ f t = some g) →
      Rep U out (fun t => if ∃ e ∈ done, e.name = t then (f t).map cp else none) →
      ∃ out', copyLoop cp inm es out = .ok out' ∧ Rep U out' (fun t => if ∃ e ∈ done ++ L, e.name = t then (f t).map cp else none) ∧
        out'.error = out.error
  | [], es, out, done, ha, _, ho => by
    obtain ⟨⟨s, junk, rfl, hsn⟩, -⟩ := ha
    refine ⟨out, by simp [copyLoop, hsn, copyGroup], by simpa using ho, rfl⟩
  | e :: L, es, out, done, ha, he, ho => by
    obtain ⟨⟨s, junk, rfl, hsn⟩, hn⟩ := ha
    obtain ⟨t, g, hu, a, b, c, d⟩ := he e (by simp)
    have hname : e.name = t := by rw [a]; exact List.take_of_length_le (hlen t hu)
    have hne : t ≠ [] := hU.nonempty t hu
    obtain ⟨o1, p1, p2, p3, -⟩ := add_rep hU ho t hu (cp g)
    have hg : copyGroup cp out inm e.name = .ok (o1, ((if ∃ e ∈ done, e.name = t then (f t).map cp else none)).toList) := by
      simp only [copyGroup, hname, if_neg hne, if_neg hs, get_rep hU hr t hu, Res.bind_ok, d]
      rw [p1, d]
    have hrep : Rep U o1 (fun u => if ∃ e' ∈ done ++ [e], e'.name = u then (f u).map cp else none) := by
      have : upd (fun t => if ∃ e ∈ done, e.name = t then (f t).map cp else none) t (some (cp g)) =
          (fun u => if ∃ e' ∈ done ++ [e], e'.name = u then (f u).map cp else none) := by
        funext u
        unfold upd
        by_cases hut : u = t
        · subst hut
          rw [if_pos rfl, if_pos ⟨e, by simp, hname⟩, d]; rfl
        · rw [if_neg hut]
          have : (∃ e' ∈ done ++ [e], e'.name = u) ↔ (∃ e' ∈ done, e'.name = u) := by
            constructor
            · rintro ⟨e', h1, h2⟩
              rcases List.mem_append.1 h1 with h | h
              · exact ⟨e', h, h2⟩
              · simp only [List.mem_singleton] at h; subst h
                exact absurd (h2.symm.trans hname) hut
            · rintro ⟨e', h1, h2⟩; exact ⟨e', by simp [h1], h2⟩
          simp only [this]
      rw [← this]; exact p2
    obtain ⟨o2, q1, q2, q3⟩ := copyLoop_rep hU cp inm f hr hs hlen L (L ++ s :: junk) o1 (done ++ [e])
      ⟨⟨s, junk, rfl, hsn⟩, fun e he => hn e (by simp [he])⟩ (by simpa using he) hrep
    refine ⟨o2, ?_, by rw [List.append_assoc, List.singleton_append] at q2; exact q2, q3.trans p3⟩
    simp only [List.cons_append, copyLoop, hg, Res.bind_ok, if_neg (hn e (by simp))]
    exact q1

/-- **C44.** Copying a model (whose settings groups have names of at most 100 bytes with different hashes)
gives a model that has a copy of every settings group under the same name and no other group, without undefined
behaviour and without an error flag of its own. -/
theorem C44_model_copy_settings {U : CStr → Prop} (hU : Usable U) (hlen : ∀ t, U t → t.length ≤ 100) (cp : γ → γ)
    (m : Mod γ) (f : CStr → Option γ) (hr : Rep U m f) :
    ∃ m', modelCopy cp m = .ok m' ∧ m'.error = m.error ∧ ∀ t, U t → get m' t = .ok ((f t).map cp) := by
  cases hs : m.settings with
  | none =>
    refine ⟨m, by simp [modelCopy, hs], rfl, ?_⟩
    intro t ht
    have := get_rep hU hr t ht
    rw [this]
    have hg : get m t = .ok none := by simp [get, hs]
    rw [this] at hg
    simp only [Res.ok.injEq] at hg
    rw [hg]; rfl
  | some es =>
    obtain ⟨L, hl, hp, h1, h2⟩ := hr.live
    unfold Live at hl
    rw [hs] at hl; simp only at hl
    obtain ⟨m', a, b, c⟩ := copyLoop_rep hU cp m f hr (by simp [hs]) hlen L es { m with settings := none } [] hl (by simpa using h1)
      (by simpa using rep_none U m.error)
    refine ⟨m', by simp [modelCopy, hs, a], c, ?_⟩
    intro t ht
    rw [get_rep hU b t ht]
    congr 1
    cases hft : f t with
    | none => simp
    | some g =>
      obtain ⟨e, he, hh⟩ := h2 t g ht hft
      obtain ⟨u, g', hu, x, y, -, -⟩ := h1 e he
      have : u = t := hU.inj u t hu ht (by rw [← y, hh])
      subst this
      rw [if_pos ⟨e, by simpa using he, by rw [x]; exact List.take_of_length_le (hlen u hu)⟩]

/-- Non-vacuity: the hypotheses hold of a model with two groups. -/
example : ∃ (m : Mod Nat) (f : CStr → Option Nat), Rep (fun t => t = str "apop_mle" ∨ t = str "apop_mcmc") m f ∧
    f (str "apop_mle") = some 1 ∧ f (str "apop_mcmc") = some 2 := by
  obtain ⟨m1, -, b, -, -⟩ := add_rep usable_ex (rep_none _ none) (str "apop_mle") (Or.inl rfl) 1
  obtain ⟨m2, -, b2, -, -⟩ := add_rep usable_ex b (str "apop_mcmc") (Or.inr rfl) 2
  exact ⟨m2, _, b2, by decide +kernel, by decide +kernel⟩

/-- A settings group whose name is longer than 100 bytes. -/
def longName : CStr := List.replicate 101 97

/-- **C44 fails for names longer than 100 bytes**: the copy looks the group up by its truncated name, does not find it, and
flags error 's'. -/
theorem C44_long_name_refuted :
    ∃ m fr, add ({} : Mod Nat) longName 1 = .ok (m, fr) ∧ get m longName = .ok (some 1) ∧
      ∃ m', modelCopy (fun n => n) m = .ok m' ∧ m'.error = some 's' ∧ get m' longName = .ok none := by
  refine ⟨⟨some [⟨longName.take 100, djb2 longName, some 1⟩, sentinel], none⟩, [], ?_, ?_, ⟨none, some 's'⟩, ?_, rfl, ?_⟩ <;> decide +kernel

/-- **C44, freeing**: every group of a model is freed exactly once when the model is freed. -/
theorem C44_model_free {U : CStr → Prop} {m : Mod γ} {f : CStr → Option γ} (hr : Rep U m f) (hU : Usable U) :
    ∃ names : List CStr, names.Nodup ∧ (∀ t, t ∈ names ↔ U t ∧ (f t).isSome) ∧ modelFree m = .ok (names.filterMap f) := by
  obtain ⟨L, hl, hp, h1, h2⟩ := hr.live
  have hfree : modelFree m = .ok (L.filterMap (·.group)) := by
    unfold Live at hl
    unfold modelFree
    cases hs : m.settings with
    | none => rw [hs] at hl; simp only at hl; subst hl; rfl
    | some es => rw [hs] at hl; simp only at hl; simp [scan_arr L es hl]
  have key : ∀ (L : List (Entry γ)), L.Pairwise (fun a b => a.hash ≠ b.hash) →
      (∀ e ∈ L, ∃ t g, U t ∧ e.name = t.take 100 ∧ e.hash = djb2 t ∧ e.group = some g ∧ f t = some g) →
      ∃ names : List CStr, names.Nodup ∧ (∀ t ∈ names, U t ∧ (f t).isSome) ∧ (∀ e ∈ L, ∃ t ∈ names, e.hash = djb2 t) ∧
        (∀ t ∈ names, ∃ e ∈ L, e.hash = djb2 t) ∧ L.filterMap (·.group) = names.filterMap f := by
    intro L
    induction L with
    | nil => intro _ _; exact ⟨[], by simp, by simp, by simp, by simp, rfl⟩
    | cons e L ih =>
      intro hp h1
      obtain ⟨p1, p2⟩ := List.pairwise_cons.1 hp
      obtain ⟨ns, a, b, c, c', d⟩ := ih p2 (fun e he => h1 e (by simp [he]))
      obtain ⟨t, g, hu, x, y, z, w⟩ := h1 e (by simp)
      refine ⟨t :: ns, ?_, ?_, ?_, ?_, ?_⟩
      · rw [List.nodup_cons]
        refine ⟨?_, a⟩
        intro ht
        obtain ⟨e', he', hh⟩ := c' t ht
        exact p1 e' he' (by rw [y, hh])
      · intro u hu'
        rcases List.mem_cons.1 hu' with rfl | h
        · exact ⟨hu, by simp [w]⟩
        · exact b u h
      · intro e' he'
        rcases List.mem_cons.1 he' with rfl | h
        · exact ⟨t, by simp, y⟩
        · obtain ⟨u, h1, h2⟩ := c e' h; exact ⟨u, by simp [h1], h2⟩
      · intro u hu'
        rcases List.mem_cons.1 hu' with rfl | h
        · exact ⟨e, by simp, y⟩
        · obtain ⟨e', h1, h2⟩ := c' u h; exact ⟨e', by simp [h1], h2⟩
      · simp [List.filterMap_cons, z, w, d]
  obtain ⟨ns, a, b, c, -, d⟩ := key L hp h1
  refine ⟨ns, a, ?_, by rw [hfree, d]⟩
  intro t
  refine ⟨b t, ?_⟩
  rintro ⟨hu, hf⟩
  obtain ⟨g, hg⟩ := Option.isSome_iff_exists.1 hf
  obtain ⟨e, he, hh⟩ := h2 t g hu hg
  obtain ⟨u, hu', hx⟩ := c e he
  have := hU.inj t u hu (b u hu').1 (by rw [← hh, hx])
  rw [this]; exact hu'

end Apop.Settings
