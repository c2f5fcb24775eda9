import Verif.Map.Lemmas

/-! # `apop_map` and `apop_map_sum` (C46-C49) -/

namespace Apop.Map
open Par
open Rows (maxsize)
variable {α : Type}

/-- A data set whose parts are not empty, with a rectangular matrix (and no more columns than an `int` can count). -/
structure Full (p : Page α) : Prop where
  vec : ∀ v, p.vector = some v → v ≠ []
  mat : ∀ m, p.matrix = some m → m.WF ∧ 0 < m.size1 ∧ 0 < m.cols ∧ m.cols < 2 ^ 31

/-- The vector after the function. -/
def vecMapped (f : α → Nat → α) (v : List α) : List α := v.mapIdx (fun i x => f x i)

theorem mapIdx_const {β γ : Type} (f : β → γ) (l : List β) : l.mapIdx (fun _ x => f x) = l.map f := by
  apply List.ext_getElem?
  intro i
  simp [List.getElem?_mapIdx]

theorem vecMapped_const (f : α → α) (v : List α) : vecMapped (fun x _ => f x) v = v.map f := mapIdx_const f v

theorem matMapped_const (f : α → α) (m : Mat α) : matMapped (fun x _ => f x) m = { m with rows := m.rows.map (List.map f) } := by
  unfold matMapped
  congr 1
  split
  · exact List.map_congr_left (fun row _ => mapIdx_const f row)
  · exact mapIdx_const (List.map f) m.rows

theorem toInt32_small {n : Nat} (h : n < 2 ^ 31) : Page.toInt32 n = n := by
  have h2 : n % 2 ^ 32 = n := Nat.mod_eq_of_lt (by omega)
  simp only [Page.toInt32, h2]
  rw [if_pos h]

theorem allocV (junk : α) (n : Nat) : Page.allocWith junk n 0 0 = { vector := if n = 0 then none else some (List.replicate n junk), names := some Names.alloc } := by
  by_cases h : n = 0 <;> simp [Page.allocWith, Page.allocSizes, h]

theorem allocM (junk : α) {r c : Nat} (hr : 0 < r) (hc : 0 < c) (h : c < 2 ^ 31) :
    Page.allocWith junk r c 0 = { matrix := some (Mat.fresh junk r c), names := some Names.alloc } := by
  have : c ≠ 0 := by omega
  simp [Page.allocWith, Page.allocSizes, this, toInt32_small h]
  omega

theorem allocA (junk : α) (v : Nat) {r c : Nat} (hr : 0 < r) (hc : 0 < c) :
    Page.allocWith junk v r c = { vector := if v = 0 then none else some (List.replicate v junk), matrix := some (Mat.fresh junk r c), names := some Names.alloc } := by
  have : c ≠ 0 := by omega
  by_cases h : v = 0 <;> simp [Page.allocWith, Page.allocSizes, this, h] <;> omega

theorem fresh_WF (junk : α) (r c : Nat) : (Mat.fresh junk r c).WF := by
  intro row h
  simp [Mat.fresh] at h
  simp [h.2, Mat.fresh]

theorem named_parts (b : Bool) (part : Char) (p o : Page α) : ∃ n, named b part p o = { o with names := n } := by
  unfold named
  split
  · exact ⟨_, rfl⟩
  · exact ⟨o.names, rfl⟩

theorem doVector_done {junk : α} {sch : Nat → List Nat} {f : α → Nat → α} {same : Bool} {v : Option (List α)} {out r : Option (List α)}
    (hl : v.map List.length = out.map List.length) (h : doVector junk sch f same v out = .done r) : r = v.map (vecMapped f) := by
  cases v with
  | none => cases out with
    | none => simp [doVector] at h; simp [← h]
    | some o => simp at hl
  | some v => cases out with
    | none => simp at hl
    | some o =>
      simp at hl
      rw [vecLoop_done h, List.drop_of_length_le (by omega)]
      simp [vecMapped]

theorem doMatrix_done {junk : α} {sch : Nat → List Nat} {f : α → Nat → α} {same : Bool} {m out r : Option (Mat α)}
    (hm : ∀ x, m = some x → x.WF) (ho : ∀ x, out = some x → x.WF)
    (hl : m.map (fun m => (m.size1, m.cols)) = out.map (fun m => (m.size1, m.cols))) (hs : same = true → m = out)
    (h : doMatrix junk sch f same m out = .done r) : r = m.map (matMapped f) := by
  cases m with
  | none => cases out with
    | none => simp [doMatrix] at h; simp [← h]
    | some o => simp at hl
  | some m => cases out with
    | none => simp at hl
    | some o =>
      simp at hl
      rw [doMatrix, Run.bind_eq_done] at h
      obtain ⟨x, hx, h⟩ := h
      injection h with h
      rw [← h, matMap_done (hm m rfl) (ho o rfl) hl.1 hl.2 (fun e => by simpa using hs e) hx]
      rfl

/-- In place: the same set, with the parts asked for mapped. -/
theorem scalarMap_same {junk : α} {sch : Nat → List Nat} {f : α → Nat → α} {part : Char} {p r : Page α} (hp : Full p)
    (h : scalarMap junk sch f part true p p = .done r) :
    r = { p with
      vector := if part = 'v' ∨ part = 'a' then p.vector.map (vecMapped f) else p.vector
      matrix := if part = 'm' ∨ part = 'a' then p.matrix.map (matMapped f) else p.matrix } := by
  rw [scalarMap, Run.bind_eq_done] at h
  obtain ⟨v, hv, h⟩ := h
  rw [Run.bind_eq_done] at h
  obtain ⟨m, hm, h⟩ := h
  injection h with h
  rw [← h]
  congr 1
  · split at hv
    · rw [doVector_done rfl hv]; simp [*]
    · injection hv with hv; simp [*]
  · split at hm
    · rw [doMatrix_done (fun x hx => (hp.mat x hx).1) (fun x hx => (hp.mat x hx).1) rfl (fun _ => rfl) hm]; simp [*]
    · injection hm with hm; simp [*]

/-- A new set for the results has the parts and sizes they need. -/
theorem newOut_shape {junk : α} {part : Char} {p : Page α} (hp : Full p) (hpart : part = 'v' ∨ part = 'm' ∨ part = 'a')
    (hvm : ¬(part = 'm' ∧ vecOnly p = true)) : ∃ o, newOut junk false part p = some o ∧
    o.vector.map List.length = (if part = 'v' ∨ part = 'a' then p.vector.map List.length else none) ∧
    o.matrix.map (fun m => (m.size1, m.cols)) = (if part = 'm' ∨ part = 'a' then p.matrix.map (fun m => (m.size1, m.cols)) else none) ∧
    (∀ m, o.matrix = some m → m.WF) ∧ o.error = none ∧ o.text = [] ∧ o.weights = none := by
  have hv0 : p.vector.map List.length = if vsize p = 0 then none else some (vsize p) := by
    unfold vsize
    cases hv : p.vector with
    | none => rfl
    | some v =>
      have := hp.vec v hv
      have : v.length ≠ 0 := by simpa using this
      simp [this]
  have lenV : ∀ n, (if n = 0 then none else some (List.replicate n junk) : Option (List α)).map List.length = if n = 0 then none else some n := by
    intro n; by_cases h : n = 0 <;> simp [h]
  by_cases hpv : part = 'v' ∨ vecOnly p = true
  · refine ⟨Page.allocWith junk (vsize p) 0 0, by simp [newOut, hpv], ?_⟩
    rw [allocV]
    refine ⟨?_, ?_, ?_, rfl, rfl, rfl⟩
    · have hva : part = 'v' ∨ part = 'a' := by
        rcases hpv with h | h
        · exact Or.inl h
        · rcases hpart with h' | h' | h'
          · exact Or.inl h'
          · exact absurd ⟨h', h⟩ hvm
          · exact Or.inr h'
      rw [if_pos hva, lenV, hv0]
    · rcases hpv with h | h
      · subst h; simp
      · simp [vecOnly] at h
        simp [h.2]
    · simp
  · have hno : ¬(part = 'v') := fun h => hpv (Or.inl h)
    have hvo : vecOnly p = false := by
      cases h : vecOnly p with
      | false => rfl
      | true => exact absurd (Or.inr h) hpv
    by_cases hpm : part = 'm'
    · subst hpm
      cases hm : p.matrix with
      | none =>
        refine ⟨Page.allocWith junk 0 0 0, by simp [newOut, hvo, msize1, msize2, hm], ?_⟩
        rw [allocV]
        simp
      | some m =>
        obtain ⟨h1, h2, h3, h4⟩ := hp.mat m hm
        refine ⟨Page.allocWith junk m.size1 m.cols 0, by simp [newOut, hvo, msize1, msize2, hm], ?_⟩
        rw [allocM junk h2 h3 h4]
        refine ⟨by simp, by simp [Mat.fresh, Mat.size1], ?_, rfl, rfl, rfl⟩
        rintro x ⟨⟩
        exact fresh_WF junk _ _
    · have hpa : part = 'a' := by simpa [hno, hpm] using hpart
      subst hpa
      cases hm : p.matrix with
      | none =>
        have hvn : p.vector = none := by
          cases hv : p.vector with
          | none => rfl
          | some v => exact absurd (Or.inr (by simp [vecOnly, hv, hm])) hpv
        refine ⟨Page.allocWith junk 0 0 0, by simp [newOut, hvo, msize1, msize2, vsize, hm, hvn], ?_⟩
        rw [allocV]
        simp [hvn]
      | some m =>
        obtain ⟨h1, h2, h3, h4⟩ := hp.mat m hm
        refine ⟨Page.allocWith junk (vsize p) m.size1 m.cols, by simp [newOut, hvo, msize1, msize2, hm], ?_⟩
        rw [allocA junk _ h2 h3]
        refine ⟨by rw [if_pos (Or.inr rfl)]; exact (lenV _).trans hv0.symm, by simp [Mat.fresh, Mat.size1], ?_, rfl, rfl, rfl⟩
        rintro x ⟨⟩
        exact fresh_WF junk _ _

theorem scalarMap_new {junk : α} {sch : Nat → List Nat} {f : α → Nat → α} {part : Char} {p o r : Page α} (hp : Full p)
    (hv : o.vector.map List.length = (if part = 'v' ∨ part = 'a' then p.vector.map List.length else none))
    (hm : o.matrix.map (fun m => (m.size1, m.cols)) = (if part = 'm' ∨ part = 'a' then p.matrix.map (fun m => (m.size1, m.cols)) else none))
    (hw : ∀ m, o.matrix = some m → m.WF) (h : scalarMap junk sch f part false p o = .done r) :
    r = { o with
      vector := if part = 'v' ∨ part = 'a' then p.vector.map (vecMapped f) else none
      matrix := if part = 'm' ∨ part = 'a' then p.matrix.map (matMapped f) else none } := by
  rw [scalarMap, Run.bind_eq_done] at h
  obtain ⟨v, hv', h⟩ := h
  rw [Run.bind_eq_done] at h
  obtain ⟨m, hm', h⟩ := h
  injection h with h
  rw [← h]
  congr 1
  · split at hv'
    · rename_i hc
      rw [if_pos hc] at hv ⊢
      exact doVector_done hv.symm hv'
    · rename_i hc
      rw [if_neg hc] at hv ⊢
      injection hv' with hv'
      rw [← hv']
      simpa using hv
  · split at hm'
    · rename_i hc
      rw [if_pos hc] at hm ⊢
      exact doMatrix_done (fun x hx => (hp.mat x hx).1) hw hm.symm (by simp) hm'
    · rename_i hc
      rw [if_neg hc] at hm ⊢
      injection hm' with hm'
      rw [← hm']
      simpa using hm

/-! ## C46: functions on numbers -/

/-- **C46, new set.** A function on numbers, mapped over the vector ('v'), the matrix ('m') or both ('a'): whatever the schedule of the threads, the result is a new set with the
function of each element of the parts asked for at the element's place, and the input is not changed. (For `m` on a set with a vector only see `C46_m_of_vector_unwritten`.) -/
theorem C46_new {junk : α} {sch : Nat → List Nat} {f : α → α} {part : Char} {p p' : Page α} {o : Option (Page α)} (hp : Full p)
    (hpart : part = 'v' ∨ part = 'm' ∨ part = 'a') (hvm : ¬(part = 'm' ∧ vecOnly p = true))
    (h : mapPage junk sch (.scalar (fun x _ => f x)) part .n p = .done (p', o)) :
    p' = p ∧ ∃ q, o = some q ∧
      q.vector = (if part = 'v' ∨ part = 'a' then p.vector.map (List.map f) else none) ∧
      q.matrix = (if part = 'm' ∨ part = 'a' then p.matrix.map (fun m => { m with rows := m.rows.map (List.map f) }) else none) ∧
      q.error = none ∧ q.text = [] ∧ q.weights = none := by
  have hrc : ¬((part = 'c' ∨ part = 'r') ∧ (Fn.scalar (fun x _ => f x) : Fn α).isScalar = true) := by
    rintro ⟨h1 | h1, _⟩ <;> subst h1 <;> simp at hpart
  obtain ⟨o0, ho, hv, hm, hw, he, ht, hwt⟩ := newOut_shape (junk := junk) hp hpart hvm
  obtain ⟨n, hn⟩ := named_parts false part p o0
  rw [mapPage, if_neg hrc] at h
  simp only [setup, Fn.byRows, ho, Option.map_some, hn] at h
  rw [Run.bind_eq_done] at h
  obtain ⟨r, hr, h⟩ := h
  simp only [reduceCtorEq, decide_false, if_false] at hr h
  injection h with h
  simp only [Prod.mk.injEq] at h
  have := scalarMap_new (o := { o0 with names := n }) hp hv hm hw hr
  refine ⟨h.1.symm, r, h.2.symm, ?_, ?_, ?_, ?_, ?_⟩
  · rw [this]; simp only; split
    · congr 1; funext v; exact vecMapped_const f v
    · rfl
  · rw [this]; simp only; split
    · congr 1; funext m; exact matMapped_const f m
    · rfl
  · rw [this]; exact he
  · rw [this]; exact ht
  · rw [this]; exact hwt

/-- **C46, in place.** The elements of the parts asked for are replaced, and nothing else of the set is changed. -/
theorem C46_inplace {junk : α} {sch : Nat → List Nat} {f : α → α} {part : Char} {p p' : Page α} {o : Option (Page α)} (hp : Full p)
    (hpart : part = 'v' ∨ part = 'm' ∨ part = 'a') (h : mapPage junk sch (.scalar (fun x _ => f x)) part .y p = .done (p', o)) :
    o = some p' ∧ p' = { p with
      vector := if part = 'v' ∨ part = 'a' then p.vector.map (List.map f) else p.vector
      matrix := if part = 'm' ∨ part = 'a' then p.matrix.map (fun m => { m with rows := m.rows.map (List.map f) }) else p.matrix } := by
  have hrc : ¬((part = 'c' ∨ part = 'r') ∧ (Fn.scalar (fun x _ => f x) : Fn α).isScalar = true) := by
    rintro ⟨h1 | h1, _⟩ <;> subst h1 <;> simp at hpart
  have hrc' : ¬((part = 'r' ∨ part = 'c') ∧ p.vector.isNone = true) := by
    rintro ⟨h1 | h1, _⟩ <;> subst h1 <;> simp at hpart
  rw [mapPage, if_neg hrc] at h
  simp only [setup, if_neg hrc'] at h
  rw [Run.bind_eq_done] at h
  obtain ⟨r, hr, h⟩ := h
  simp only [decide_true, if_true] at hr h
  injection h with h
  simp only [Prod.mk.injEq] at h
  rw [← h.2, ← h.1]
  refine ⟨rfl, ?_⟩
  rw [scalarMap_same hp hr]
  congr 1
  · split
    · congr 1; funext v; exact vecMapped_const f v
    · rfl
  · split
    · congr 1; funext m; exact matMapped_const f m
    · rfl

theorem scalarMap_fair {junk : α} {sch : Nat → List Nat} {f : α → Nat → α} {part : Char} {same : Bool} {p o : Page α} (hp : Full p)
    (hv : ∀ n, o.vector.map List.length = some n → part = 'v' ∨ part = 'a' → vsize p = n)
    (hm : part = 'm' ∨ part = 'a' → o.matrix.map (fun m => (m.size1, m.cols)) = p.matrix.map (fun m => (m.size1, m.cols)))
    (hw : ∀ m, o.matrix = some m → m.WF) (hs : ∀ (k i : Nat), i < max (vsize p) (max (msize1 p) (msize2 p)) → 2 ≤ (sch k).count i) :
    ∃ r, scalarMap junk sch f part same p o = .done r := by
  unfold scalarMap
  have h1 : ∃ v, (if part = 'v' ∨ part = 'a' then doVector junk sch f same p.vector o.vector else .done o.vector : Run (Option (List α))) = .done v := by
    split
    · rename_i hc
      unfold doVector
      cases hpv : p.vector with
      | none => exact ⟨_, rfl⟩
      | some v =>
        cases hov : o.vector with
        | none => exact ⟨none, rfl⟩
        | some w =>
          have := hv w.length (by simp [hov]) hc
          simp [vsize, hpv] at this
          exact ⟨_, vecLoop_fair (by omega) (fun i hi => hs 0 i (by simp [vsize, hpv]; omega))⟩
    · exact ⟨_, rfl⟩
  obtain ⟨v, hv'⟩ := h1
  have h2 : ∃ m, (if part = 'm' ∨ part = 'a' then doMatrix junk (fun k => sch (k + 1)) f same p.matrix o.matrix else .done o.matrix : Run (Option (Mat α))) = .done m := by
    split
    · rename_i hc
      have hm' := hm hc
      unfold doMatrix
      cases hpm : p.matrix with
      | none => cases o.matrix <;> exact ⟨_, rfl⟩
      | some m =>
        cases hom : o.matrix with
        | none => simp [hpm, hom] at hm'
        | some w =>
          simp [hpm, hom] at hm'
          obtain ⟨r, hr⟩ := matMap_fair (junk := junk) (f := f) (same := same) (sch := fun k => sch (k + 1)) (hp.mat m hpm).1 (hw w hom) hm'.1.symm hm'.2.symm
            (fun k i hi => hs (k + 1) i (by simp [msize1, msize2, hpm]; omega))
          exact ⟨some r, by simp [hr]⟩
    · exact ⟨_, rfl⟩
  obtain ⟨m, hm''⟩ := h2
  rw [hv']
  simp only [Run.bind_done]
  rw [hm'']
  exact ⟨_, rfl⟩

/-- **C46, termination.** A schedule that gives each iteration its two steps (read, and write) comes to an end, so the above says what the result is. -/
theorem C46_ends {junk : α} {sch : Nat → List Nat} {f : α → Nat → α} {part : Char} {ip : Inplace} {p : Page α} (hp : Full p)
    (hpart : part = 'v' ∨ part = 'm' ∨ part = 'a') (hvm : ¬(part = 'm' ∧ vecOnly p = true))
    (hs : ∀ (k i : Nat), i < max (vsize p) (max (msize1 p) (msize2 p)) → 2 ≤ (sch k).count i) :
    ∃ r, mapPage junk sch (.scalar f) part ip p = .done r := by
  have hrc : ¬((part = 'c' ∨ part = 'r') ∧ (Fn.scalar f : Fn α).isScalar = true) := by
    rintro ⟨h1 | h1, _⟩ <;> subst h1 <;> simp at hpart
  have hrc' : ¬((part = 'r' ∨ part = 'c') ∧ p.vector.isNone = true) := by
    rintro ⟨h1 | h1, _⟩ <;> subst h1 <;> simp at hpart
  rw [mapPage, if_neg hrc]
  cases ip with
  | y =>
    simp only [setup, if_neg hrc']
    obtain ⟨r, hr⟩ := scalarMap_fair (junk := junk) (f := f) (part := part) (same := true) (o := p) hp
      (fun n hn _ => by cases hv : p.vector <;> simp [hv] at hn; simp [vsize, hv, hn]) (fun _ => rfl) (fun m hm => (hp.mat m hm).1) hs
    simp only [decide_true, hr, Run.bind_done]
    exact ⟨_, rfl⟩
  | v => exact ⟨(p, none), rfl⟩
  | n =>
    obtain ⟨o0, ho, hv, hm, hw, he, ht, hwt⟩ := newOut_shape (junk := junk) hp hpart hvm
    obtain ⟨n, hn⟩ := named_parts false part p o0
    simp only [setup, Fn.byRows, ho, Option.map_some, hn]
    obtain ⟨r, hr⟩ := scalarMap_fair (junk := junk) (f := f) (part := part) (same := false) (o := { o0 with names := n }) hp
      (fun n hn hc => by
        simp only [hn, if_pos hc] at hv
        cases hv' : p.vector <;> simp [hv'] at hv
        simp [vsize, hv', hv]) (fun hc => by simp only [if_pos hc] at hm; exact hm) hw hs
    simp only [reduceCtorEq, decide_false, hr, Run.bind_done]
    exact ⟨_, rfl⟩

/-- **'m' for a set with a vector only**: the new set has a vector of the same size, of which no element is ever written. (The documentation: "I'll ignore a NULL vector or matrix".) -/
theorem C46_m_of_vector_unwritten (junk : α) (sch : Nat → List Nat) (f : α → Nat → α) (v : List α) (hv : v ≠ []) :
    ∃ q, mapPage junk sch (.scalar f) 'm' .n { vector := some v } = .done ({ vector := some v }, some q) ∧ q.vector = some (List.replicate v.length junk) := by
  have : v.length ≠ 0 := by simpa using hv
  refine ⟨{ vector := some (List.replicate v.length junk), names := some Names.alloc }, ?_, rfl⟩
  simp [mapPage, setup, newOut, vecOnly, Fn.byRows, Fn.isScalar, allocV, vsize, this, named, scalarMap, doMatrix]

/-- A function on numbers for rows or columns is an error; the set returned is marked 'E', not 'p' as documented, and the input is not changed. -/
theorem C46_scalar_on_rows (junk : α) (sch : Nat → List Nat) (f : α → Nat → α) (part : Char) (ip : Inplace) (p : Page α) (h : part = 'r' ∨ part = 'c') :
    ∃ q, mapPage junk sch (.scalar f) part ip p = .done (p, some q) ∧ q.error = some 'E' ∧ q.vector = none ∧ q.matrix = none := by
  refine ⟨_, by unfold mapPage; rw [if_pos ⟨h.symm, rfl⟩], rfl, rfl, rfl⟩

/-- `inplace='v'`: nothing is returned and nothing changed. -/
theorem C46_void (junk : α) (sch : Nat → List Nat) (f : α → Nat → α) (part : Char) (p : Page α) (h : ¬(part = 'r' ∨ part = 'c')) :
    mapPage junk sch (.scalar f) part .v p = .done (p, none) := by
  unfold mapPage
  rw [if_neg (fun ⟨h1, _⟩ => h h1.symm)]
  rfl

/-- The older `apop_vector_map`. -/
theorem C46_vector_map {junk : α} {σ : List Nat} {f : α → α} {v : List α} {r : Option (List α)} (h : vectorMap junk σ f (some v) = .done r) : r = some (v.map f) := by
  rw [vecLoop_done h, List.drop_of_length_le (by simp)]
  simp [mapIdx_const]

/-- A set with a vector and a 3 by 2 matrix, with a schedule that goes backwards and then forwards: not vacuous. -/
example : mapPage 0 (fun _ => [2, 1, 0, 0, 1, 2]) (.scalar (fun x _ => x * 10)) 'a' .n
      { vector := some [1, 2, 3], matrix := some ⟨[[4, 5], [6, 7], [8, 9]], 2⟩ } =
    .done ({ vector := some [1, 2, 3], matrix := some ⟨[[4, 5], [6, 7], [8, 9]], 2⟩ },
      some { vector := some [10, 20, 30], matrix := some ⟨[[40, 50], [60, 70], [80, 90]], 2⟩, names := some Names.alloc }) := by decide +kernel

example : Full ({ vector := some [1, 2, 3], matrix := some ⟨[[4, 5], [6, 7], [8, 9]], 2⟩ } : Page Nat) :=
  ⟨by rintro v ⟨⟩; simp, by rintro m ⟨⟩; decide⟩

/-! ## C47: the index -/

/-- **C47 (vectors).** A function that takes the index gets the position of the element in the vector. Missing: matrices (`C47_matrix_index`, `C47_index_depends_on_shape`). -/
theorem C47_vector_index_partial {junk : α} {sch : Nat → List Nat} {f : α → Nat → α} {v : List α} {p' : Page α} {o : Option (Page α)} (hv : v ≠ [])
    (h : mapPage junk sch (.scalar f) 'a' .y { vector := some v } = .done (p', o)) :
    ∃ w, p'.vector = some w ∧ ∀ i, w[i]? = (v[i]?).map (fun x => f x i) := by
  rw [mapPage, if_neg (by simp)] at h
  simp only [setup] at h
  rw [if_neg (by simp)] at h
  rw [Run.bind_eq_done] at h
  obtain ⟨r, hr, h⟩ := h
  simp only [decide_true, if_true] at hr h
  injection h with h
  simp only [Prod.mk.injEq] at h
  have := scalarMap_same (p := { vector := some v }) ⟨by rintro _ ⟨⟩; exact hv, by rintro _ ⟨⟩⟩ hr
  rw [← h.1, this]
  exact ⟨vecMapped f v, by simp, fun i => by simp [vecMapped, List.getElem?_mapIdx]⟩

/-- What a function on the elements of a matrix gets as the index: the column in a matrix with no more rows than columns, else the row. -/
theorem C47_matrix_index {junk : α} {sch : Nat → List Nat} {f : α → Nat → α} {m : Mat α} {p' : Page α} {o : Option (Page α)}
    (hm : m.WF) (h1 : 0 < m.size1) (h2 : 0 < m.cols) (h3 : m.cols < 2 ^ 31)
    (h : mapPage junk sch (.scalar f) 'a' .y { matrix := some m } = .done (p', o)) :
    ∃ w, p'.matrix = some w ∧ ∀ i j, w.get? i j = (m.get? i j).map (fun x => f x (if m.size1 ≤ m.cols then j else i)) := by
  rw [mapPage, if_neg (by simp)] at h
  simp only [setup] at h
  rw [if_neg (by simp)] at h
  rw [Run.bind_eq_done] at h
  obtain ⟨r, hr, h⟩ := h
  simp only [decide_true, if_true] at hr h
  injection h with h
  simp only [Prod.mk.injEq] at h
  have := scalarMap_same (p := { matrix := some m }) ⟨by rintro _ ⟨⟩, by rintro _ ⟨⟩; exact ⟨hm, h1, h2, h3⟩⟩ hr
  rw [← h.1, this]
  refine ⟨matMapped f m, by simp, fun i j => ?_⟩
  unfold matMapped Mat.get?
  by_cases hle : m.size1 ≤ m.cols
  · simp only [if_pos hle]
    cases hr : m.rows[i]? <;> simp [hr, List.getElem?_mapIdx]
  · simp only [if_neg hle]
    cases hr : m.rows[i]? <;> simp [hr, List.getElem?_mapIdx]

/-- **The index of a matrix element depends on the shape of the matrix**, and different elements get the same: it is not "the position of the element in the matrix". -/
theorem C47_index_depends_on_shape :
    mapPage 0 (fun _ => [0, 0, 1, 1, 2, 2]) (.scalar (fun _ i => i)) 'a' .y { matrix := some ⟨[[7, 7, 7], [7, 7, 7]], 3⟩ } =
      .done ({ matrix := some ⟨[[0, 1, 2], [0, 1, 2]], 3⟩ }, some { matrix := some ⟨[[0, 1, 2], [0, 1, 2]], 3⟩ }) ∧
    mapPage 0 (fun _ => [0, 0, 1, 1, 2, 2]) (.scalar (fun _ i => i)) 'a' .y { matrix := some ⟨[[7, 7], [7, 7], [7, 7]], 2⟩ } =
      .done ({ matrix := some ⟨[[0, 0], [1, 1], [2, 2]], 2⟩ }, some { matrix := some ⟨[[0, 0], [1, 1], [2, 2]], 2⟩ }) := by
  decide +kernel

end Apop.Map
