import Verif.Vtable.Model

/-! # C25: the registry is a map in which the first registration wins -/

namespace Apop.Vtable
variable {φ : Type}

/-- Names of tables the program uses: none hashes to zero, no two hash alike. -/
structure Usable (U : CStr → Prop) : Prop where
  nonzero : ∀ t, U t → djb2 t ≠ 0
  inj : ∀ t u, U t → U u → djb2 t = djb2 u → t = u

/-- A table is sound: the entries in use are allocated and have different keys. -/
structure TabOk (v : Tab φ) : Prop where
  alloc : v.ct ≤ v.elmts.length
  keys : (v.elmts.take v.ct).Pairwise (fun a b => a.hash ≠ b.hash)

/-- The registry is sound: `L` are its tables. -/
structure Ok (vs L : List (Tab φ)) : Prop where
  shape : ∃ s junk, vs = L ++ s :: junk ∧ s.name = 0 ∧ s.ct = 0
  named : ∀ v ∈ L, v.name ≠ 0
  tabs : ∀ v ∈ L, TabOk v

/-- What a table maps a key to. -/
def Tab.find (v : Tab φ) (key : UInt64) : Option φ := ((v.elmts.take v.ct).find? (fun e => e.hash = key)).map (·.fn)

/-- What the registry maps a table hash and a key to. -/
def lookup (L : List (Tab φ)) (h key : UInt64) : Option φ := (L.find? (fun v => v.name = h)).bind (·.find key)

theorem findTab_eq (h : UInt64) : ∀ (L vs : List (Tab φ)), Ok vs L →
    ∃ c v, findTab h vs = .ok c ∧ vs[c]? = some v ∧
      ((L.find? (fun v => v.name = h) = none ∧ c = L.length ∧ v.name = 0 ∧ v.ct = 0) ∨
       (∃ A B, L = A ++ v :: B ∧ A.length = c ∧ v.name = h ∧ ∀ a ∈ A, a.name ≠ h))
  | [], vs, ho => by
    obtain ⟨⟨s, junk, rfl, hs, hc⟩, -, -⟩ := ho
    exact ⟨0, s, by simp [findTab, hs], rfl, Or.inl ⟨rfl, rfl, hs, hc⟩⟩
  | u :: L, vs, ho => by
    obtain ⟨⟨s, junk, rfl, hs, hc⟩, hn, ht⟩ := ho
    by_cases hu : u.name = h
    · exact ⟨0, u, by simp [findTab, hn u (by simp), hu], rfl, Or.inr ⟨[], L, rfl, rfl, hu, by simp⟩⟩
    · obtain ⟨c, v, a, b, d⟩ := findTab_eq h L (L ++ s :: junk) ⟨⟨s, junk, rfl, hs, hc⟩, fun v hv => hn v (by simp [hv]), fun v hv => ht v (by simp [hv])⟩
      refine ⟨c + 1, v, by simp [findTab, hn u (by simp), hu, a], by simpa using b, ?_⟩
      rcases d with ⟨d1, d2, d3⟩ | ⟨A, B, d1, d2, d3, d4⟩
      · exact Or.inl ⟨by rw [List.find?_cons_of_neg (by simpa using hu)]; exact d1, by simp [d2], d3⟩
      · refine Or.inr ⟨u :: A, B, by simp [d1], by simp [d2], d3, ?_⟩
        intro a ha
        rcases List.mem_cons.1 ha with rfl | h'
        · exact hu
        · exact d4 a h'

theorem findElt_eq (key : UInt64) (es : List (Elt φ)) : ∀ (k i : Nat), i + k ≤ es.length →
    ∃ o, findElt key es k i = .ok o ∧
      match o with
      | none => ∀ e ∈ (es.drop i).take k, e.hash ≠ key
      | some j => ∃ e, es[j]? = some e ∧ e.hash = key ∧ i ≤ j ∧ j < i + k ∧ ∀ e ∈ (es.drop i).take (j - i), e.hash ≠ key
  | 0, i, _ => ⟨none, rfl, by simp⟩
  | k + 1, i, h => by
    have hi : i < es.length := by omega
    have hd : es.drop i = es[i] :: es.drop (i + 1) := List.drop_eq_getElem_cons hi
    by_cases hk : key = es[i].hash
    · refine ⟨some i, by simp [findElt, rd_of_lt hi, hk], ⟨es[i], List.getElem?_eq_getElem hi, hk.symm, by omega, by omega, by simp⟩⟩
    · obtain ⟨o, a, b⟩ := findElt_eq key es k (i + 1) (by omega)
      refine ⟨o, by simp [findElt, rd_of_lt hi, hk, a], ?_⟩
      cases o with
      | none =>
        intro e he
        rw [hd, List.take_succ_cons] at he
        rcases List.mem_cons.1 he with rfl | h'
        · exact fun h => hk h.symm
        · exact b e h'
      | some j =>
        obtain ⟨e, b1, b2, b3, b4, b5⟩ := b
        refine ⟨e, b1, b2, by omega, by omega, ?_⟩
        intro e' he'
        rw [hd, show j - i = (j - (i + 1)) + 1 by omega, List.take_succ_cons] at he'
        rcases List.mem_cons.1 he' with rfl | h'
        · exact fun h => hk h.symm
        · exact b5 e' h'

/-- The search in a sound table. -/
theorem findElt_tab {v : Tab φ} (hv : TabOk v) (key : UInt64) :
    (v.find key = none ∧ findElt key v.elmts v.ct 0 = .ok none ∧ ∀ e ∈ v.elmts.take v.ct, e.hash ≠ key) ∨
    (∃ A e B, v.elmts.take v.ct = A ++ e :: B ∧ e.hash = key ∧ v.elmts[A.length]? = some e ∧ v.find key = some e.fn ∧
      findElt key v.elmts v.ct 0 = .ok (some A.length) ∧ A.length < v.ct ∧ (∀ a ∈ A ++ B, a.hash ≠ key)) := by
  obtain ⟨o, a, b⟩ := findElt_eq key v.elmts v.ct 0 (by have := hv.alloc; omega)
  cases o with
  | none =>
    simp only [List.drop_zero] at b
    refine Or.inl ⟨?_, a, b⟩
    unfold Tab.find
    rw [List.find?_eq_none.2 (by intro e he; simpa using b e he)]; rfl
  | some j =>
    obtain ⟨e, b1, b2, -, b4, b5⟩ := b
    simp only [List.drop_zero, Nat.sub_zero] at b5
    have hj : (v.elmts.take v.ct)[j]? = some e := by rw [List.getElem?_take_of_lt (by omega)]; exact b1
    obtain ⟨hjl, hje⟩ := List.getElem?_eq_some_iff.1 hj
    have hsplit : v.elmts.take v.ct = (v.elmts.take v.ct).take j ++ e :: (v.elmts.take v.ct).drop (j + 1) := by
      rw [← hje, ← List.drop_eq_getElem_cons hjl, List.take_append_drop]
    have hA : ((v.elmts.take v.ct).take j).length = j := by rw [List.length_take]; omega
    have htt : (v.elmts.take v.ct).take j = v.elmts.take j := by rw [List.take_take, Nat.min_eq_left (by omega)]
    have hpw := hv.keys
    rw [hsplit, List.pairwise_append, List.pairwise_cons] at hpw
    refine Or.inr ⟨_, e, _, hsplit, b2, by rw [hA]; exact b1, ?_, by rw [hA]; exact a, by rw [hA]; omega, ?_⟩
    · unfold Tab.find
      rw [hsplit, List.find?_append, List.find?_eq_none.2 (by intro x hx; rw [htt] at hx; simpa using b5 x hx),
        List.find?_cons_of_pos (by simpa using b2)]
      rfl
    · intro x hx
      rcases List.mem_append.1 hx with h | h
      · rw [htt] at h; exact b5 x h
      · intro hh; exact hpw.2.1.1 x h (b2.trans hh.symm)

theorem findTab_append {h : UInt64} : ∀ {A : List (Tab φ)} {v : Tab φ} {B : List (Tab φ)}, v.name = h → h ≠ 0 →
    (∀ a ∈ A, a.name ≠ 0) → (∀ a ∈ A, a.name ≠ h) → findTab h (A ++ v :: B) = .ok A.length
  | [], v, B, h1, h2, _, _ => by simp [findTab, h1, h2]
  | a :: A, v, B, h1, h2, h3, h4 => by
    have := findTab_append (A := A) (B := B) h1 h2 (fun a ha => h3 a (by simp [ha])) (fun a ha => h4 a (by simp [ha]))
    simp [findTab, h3 a (by simp), h4 a (by simp), this]

/-- The registry (NULL: no tables) has the tables `L`. -/
def Live (r : Reg φ) (L : List (Tab φ)) : Prop :=
  match r with
  | none => L = []
  | some vs => Ok vs L

theorem lookup_split {A B : List (Tab φ)} {v : Tab φ} {h : UInt64} (hv : v.name = h) (hA : ∀ a ∈ A, a.name ≠ h) (key : UInt64) :
    lookup (A ++ v :: B) h key = v.find key := by
  unfold lookup
  rw [List.find?_append, List.find?_eq_none.2 (by intro a ha; simpa using hA a ha), List.find?_cons_of_pos (by simpa using hv)]
  rfl

theorem lookup_other {A B : List (Tab φ)} {v v' : Tab φ} {h h' : UInt64} (hv : v.name = h) (hv' : v'.name = h) (hne : h' ≠ h) (key : UInt64) :
    lookup (A ++ v' :: B) h' key = lookup (A ++ v :: B) h' key := by
  unfold lookup
  rw [List.find?_append, List.find?_append, List.find?_cons_of_neg (by simp [hv']; exact fun h => hne h.symm),
    List.find?_cons_of_neg (by simp [hv]; exact fun h => hne h.symm)]

theorem get_live {r : Reg φ} {L : List (Tab φ)} (h : Live r L) (tab : CStr) (key : UInt64) :
    get r tab key = .ok (lookup L (djb2 tab) key) := by
  unfold Live at h
  cases r with
  | none => simp only at h; subst h; rfl
  | some vs =>
    simp only at h
    obtain ⟨c, v, e1, e2, e3⟩ := findTab_eq (djb2 tab) L vs h
    simp only [get, e1, Res.bind_ok, rd_eq_ok.2 e2]
    rcases e3 with ⟨f1, f2, f3, -⟩ | ⟨A, B, f1, f2, f3, f4⟩
    · rw [if_pos f3]; simp [lookup, f1]
    · have hv : v ∈ L := by rw [f1]; simp
      rw [if_neg (h.named v hv), f1, lookup_split f3 f4]
      rcases findElt_tab (h.tabs v hv) key with ⟨g1, g2, -⟩ | ⟨A', e, B', g1, g2, g3, g4, g5, g6, g7⟩
      · simp [g2, g1]
      · simp [g5, rd_eq_ok.2 g3, g4]

/-- Replace one table of the registry. -/
theorem live_replace {vs L A B : List (Tab φ)} {v v' : Tab φ} (h : Ok vs L) (hL : L = A ++ v :: B) (hn : v'.name = v.name) (hv' : TabOk v') :
    wr vs A.length v' = .ok (vs.set A.length v') ∧ Ok (vs.set A.length v') (A ++ v' :: B) := by
  obtain ⟨⟨s, junk, hs, h1, h2⟩, hnm, ht⟩ := h
  subst hL
  refine ⟨wr_of_lt (by rw [hs]; simp), ⟨s, junk, ?_, h1, h2⟩, ?_, ?_⟩
  · rw [hs]; simp [List.set_append_right]
  · intro w hw
    rcases List.mem_append.1 hw with h' | h'
    · exact hnm w (by simp [h'])
    · rcases List.mem_cons.1 h' with rfl | h''
      · rw [hn]; exact hnm v (by simp)
      · exact hnm w (by simp [h''])
  · intro w hw
    rcases List.mem_append.1 hw with h' | h'
    · exact ht w (by simp [h'])
    · rcases List.mem_cons.1 h' with rfl | h''
      · exact hv'
      · exact ht w (by simp [h''])

/-- Inserting into an existing table. -/
theorem insert_tab {v : Tab φ} (hv : TabOk v) (key : UInt64) (fn : φ) (hno : ∀ e ∈ v.elmts.take v.ct, e.hash ≠ key) :
    TabOk { v with elmts := v.elmts.take v.ct ++ [⟨key, fn⟩], ct := v.ct + 1 } ∧
    ∀ k, Tab.find { v with elmts := v.elmts.take v.ct ++ [(⟨key, fn⟩ : Elt φ)], ct := v.ct + 1 } k = if k = key then some fn else v.find k := by
  have hl : (v.elmts.take v.ct).length = v.ct := by rw [List.length_take]; have := hv.alloc; omega
  have htk : (v.elmts.take v.ct ++ [(⟨key, fn⟩ : Elt φ)]).take (v.ct + 1) = v.elmts.take v.ct ++ [⟨key, fn⟩] :=
    List.take_of_length_le (by simp [hl])
  refine ⟨⟨by simp [hl], ?_⟩, ?_⟩
  · simp only [htk, List.pairwise_append]
    refine ⟨hv.keys, by simp, ?_⟩
    intro a ha b hb
    simp only [List.mem_singleton] at hb; subst hb
    exact hno a ha
  · intro k
    unfold Tab.find
    simp only [htk, List.find?_append]
    by_cases hk : k = key
    · subst hk
      rw [List.find?_eq_none.2 (by intro x hx; simpa using hno x hx)]
      simp
    · rw [if_neg hk, List.find?_cons_of_neg (by simp; exact fun h => hk h.symm)]
      simp

theorem lookup_append_new {L : List (Tab φ)} {v : Tab φ} {h : UInt64} (hv : v.name = h) (hno : L.find? (fun v => v.name = h) = none) (h' key : UInt64) :
    lookup (L ++ [v]) h' key = if h' = h then v.find key else lookup L h' key := by
  unfold lookup
  rw [List.find?_append]
  by_cases e : h' = h
  · subst e
    rw [hno, if_pos rfl, List.find?_cons_of_pos (by simpa using hv)]; rfl
  · rw [if_neg e, List.find?_cons_of_neg (by simp [hv]; exact fun h => e h.symm)]
    simp

/-- `add`: the key is set unless it was there. -/
theorem add_live {r : Reg φ} {L : List (Tab φ)} (null : φ) (h : Live r L) (tab : CStr) (fn : φ) (key : UInt64) (hz : djb2 tab ≠ 0) :
    ∃ r' L', add null r tab fn key = .ok (r', 0) ∧ Live r' L' ∧
      ∀ h' k', lookup L' h' k' = if h' = djb2 tab ∧ k' = key ∧ lookup L h' k' = none then some fn else lookup L h' k' := by
  have hok : Ok (r.getD [sentinel]) L := by
    unfold Live at h
    cases r with
    | none => simp only at h; subst h; exact ⟨⟨sentinel, [], rfl, rfl, rfl⟩, by simp, by simp⟩
    | some vs => exact h
  generalize hvs : r.getD [sentinel] = vs at hok
  obtain ⟨c, v, e1, e2, e3⟩ := findTab_eq (djb2 tab) L vs hok
  rcases e3 with ⟨f1, f2, f3, -⟩ | ⟨A, B, f1, f2, f3, f4⟩
  · -- a new table
    obtain ⟨⟨s, junk, hs, s1, s2⟩, hnm, ht⟩ := hok
    have htk : vs.take c = L := by rw [hs, f2]; simp
    have hst : add null r tab fn key = .ok (some (L ++ [⟨djb2 tab, 1, [⟨key, fn⟩]⟩, sentinel]), 0) := by
      unfold add
      simp only [hvs, e1, Res.bind_ok, rd_eq_ok.2 e2, if_pos f3, htk]
      have h1 : rd (L ++ [(⟨djb2 tab, 0, [⟨0, null⟩]⟩ : Tab φ), sentinel]) c = .ok ⟨djb2 tab, 0, [⟨0, null⟩]⟩ := by
        rw [rd_eq_ok, f2]; simp
      rw [h1]
      simp only [Res.bind_ok, findElt]
      rw [wr_of_lt (by simp [f2])]
      simp [f2, List.set_append_right]
    refine ⟨_, L ++ [⟨djb2 tab, 1, [⟨key, fn⟩]⟩], hst, ?_, ?_⟩
    · refine ⟨⟨sentinel, [], by simp, rfl, rfl⟩, ?_, ?_⟩
      · intro w hw
        rcases List.mem_append.1 hw with h' | h'
        · exact hnm w h'
        · simp only [List.mem_singleton] at h'; subst h'; exact hz
      · intro w hw
        rcases List.mem_append.1 hw with h' | h'
        · exact ht w h'
        · simp only [List.mem_singleton] at h'; subst h'; exact ⟨by simp, by simp⟩
    · intro h' k'
      rw [lookup_append_new (h := djb2 tab) rfl f1]
      by_cases hh : h' = djb2 tab
      · subst hh
        have hl : lookup L (djb2 tab) k' = none := by simp [lookup, f1]
        rw [if_pos rfl, hl]
        by_cases hk : k' = key
        · subst hk; simp [Tab.find]
        · have hk2 : key ≠ k' := fun h => hk h.symm
          simp [Tab.find, hk, hk2]
      · rw [if_neg hh, if_neg (by simp [hh])]
  · -- an old one
    have hv : v ∈ L := by rw [f1]; simp
    have hok' := hok
    rcases findElt_tab (hok.tabs v hv) key with ⟨g1, g2, g3⟩ | ⟨A', e, B', g1, g2, g3, g4, g5, g6, g7⟩
    · obtain ⟨i1, i2⟩ := insert_tab (hok.tabs v hv) key fn g3
      obtain ⟨w1, w2⟩ := live_replace hok f1 (v' := { v with elmts := v.elmts.take v.ct ++ [⟨key, fn⟩], ct := v.ct + 1 }) rfl i1
      refine ⟨some (vs.set c { v with elmts := v.elmts.take v.ct ++ [⟨key, fn⟩], ct := v.ct + 1 }), _, ?_, by rw [← f2]; exact w2, ?_⟩
      · unfold add
        simp only [hvs, e1, Res.bind_ok, rd_eq_ok.2 e2, if_neg (hok'.named v hv), g2]
        rw [← f2, w1]; rfl
      · intro h' k'
        by_cases hh : h' = djb2 tab
        · subst hh
          rw [lookup_split (by exact f3) f4, f1, lookup_split f3 f4, i2]
          by_cases hk : k' = key
          · subst hk; simp [g1]
          · simp [hk]
        · rw [if_neg (by simp [hh]), f1]
          exact lookup_other f3 (by exact f3) hh k'
    · refine ⟨some vs, L, ?_, hok', ?_⟩
      · unfold add
        simp only [hvs, e1, Res.bind_ok, rd_eq_ok.2 e2, if_neg (hok'.named v hv), g5]
      · intro h' k'
        rw [if_neg]
        rintro ⟨rfl, rfl, hno⟩
        rw [f1, lookup_split f3 f4, g4] at hno
        cases hno

/-- A registration under a new key leaves its table with no spare entry, the new one last. -/
theorem add_full {r : Reg φ} {L : List (Tab φ)} (null fn : φ) (h : Live r L) (tab : CStr) (key : UInt64) (hz : djb2 tab ≠ 0)
    (hno : lookup L (djb2 tab) key = none) :
    ∃ r' v, add null r tab fn key = .ok (some r', 0) ∧ findElt key v.elmts v.ct 0 = .ok (some (v.ct - 1)) ∧ v.elmts.length = v.ct ∧
      ∃ c, findTab (djb2 tab) r' = .ok c ∧ r'[c]? = some v := by
  have hok : Ok (r.getD [sentinel]) L := by
    unfold Live at h
    cases r with
    | none => simp only at h; subst h; exact ⟨⟨sentinel, [], rfl, rfl, rfl⟩, by simp, by simp⟩
    | some vs => exact h
  have hl : ∀ v : Tab φ, TabOk v → (∀ e ∈ v.elmts.take v.ct, e.hash ≠ key) →
      findElt key (v.elmts.take v.ct ++ [(⟨key, fn⟩ : Elt φ)]) (v.ct + 1) 0 = .ok (some (v.ct + 1 - 1)) ∧ (v.elmts.take v.ct ++ [(⟨key, fn⟩ : Elt φ)]).length = v.ct + 1 := by
    intro v hv h1
    have hlen : (v.elmts.take v.ct).length = v.ct := by rw [List.length_take]; have := hv.alloc; omega
    obtain ⟨i1, i2⟩ := insert_tab hv key fn h1
    refine ⟨?_, by simp [hlen]⟩
    rcases findElt_tab i1 key with ⟨g1, -⟩ | ⟨A', e, B', g1, g2, g3, g4, g5, g6, g7⟩
    · rw [i2, if_pos rfl] at g1; cases g1
    · refine g5.trans ?_
      have hA : A'.length = v.ct := by
        refine Classical.byContradiction fun hne => ?_
        have hlt : A'.length < v.ct := by simp only at g6; omega
        simp only at g3
        rw [List.getElem?_append_left (by omega)] at g3
        exact h1 e (List.mem_of_getElem? g3) g2
      rw [hA]; rfl
  generalize hvs : r.getD [sentinel] = vs at hok
  obtain ⟨c, v, e1, e2, e3⟩ := findTab_eq (djb2 tab) L vs hok
  rcases e3 with ⟨f1, f2, f3, -⟩ | ⟨A, B, f1, f2, f3, f4⟩
  · obtain ⟨⟨s, junk, hs, s1, s2⟩, hnm, ht⟩ := hok
    have htk : vs.take c = L := by rw [hs, f2]; simp
    refine ⟨L ++ [⟨djb2 tab, 1, [⟨key, fn⟩]⟩, sentinel], ⟨djb2 tab, 1, [⟨key, fn⟩]⟩, ?_, by simp [findElt, rd], rfl, c, ?_, by rw [f2]; simp⟩
    · unfold add
      simp only [hvs, e1, Res.bind_ok, rd_eq_ok.2 e2, if_pos f3, htk]
      have h1 : rd (L ++ [(⟨djb2 tab, 0, [⟨0, null⟩]⟩ : Tab φ), sentinel]) c = .ok ⟨djb2 tab, 0, [⟨0, null⟩]⟩ := by
        rw [rd_eq_ok, f2]; simp
      rw [h1]
      simp only [Res.bind_ok, findElt]
      rw [wr_of_lt (by simp [f2])]
      simp [f2, List.set_append_right]
    · have hno' : ∀ v ∈ L, v.name ≠ djb2 tab := by
        intro v hv; simpa using List.find?_eq_none.1 f1 v hv
      subst f2
      have := @findTab_append _ (djb2 tab) L ⟨djb2 tab, 1, [⟨key, fn⟩]⟩ [sentinel] rfl hz hnm hno'
      exact this
  · have hv : v ∈ L := by rw [f1]; simp
    have hok' := hok
    rw [f1, lookup_split f3 f4] at hno
    rcases findElt_tab (hok.tabs v hv) key with ⟨g1, g2, g3⟩ | ⟨A', e, B', g1, g2, g3, g4, g5, g6, g7⟩
    · obtain ⟨i1, i2⟩ := insert_tab (hok.tabs v hv) key fn g3
      obtain ⟨w1, w2⟩ := live_replace hok f1 (v' := { v with elmts := v.elmts.take v.ct ++ [⟨key, fn⟩], ct := v.ct + 1 }) rfl i1
      obtain ⟨l1, l2⟩ := hl v (hok.tabs v hv) g3
      refine ⟨vs.set c { v with elmts := v.elmts.take v.ct ++ [⟨key, fn⟩], ct := v.ct + 1 }, { v with elmts := v.elmts.take v.ct ++ [⟨key, fn⟩], ct := v.ct + 1 }, ?_, l1, l2, c, ?_, ?_⟩
      · unfold add
        simp only [hvs, e1, Res.bind_ok, rd_eq_ok.2 e2, if_neg (hok'.named v hv), g2]
        rw [← f2, w1]; rfl
      · obtain ⟨⟨s, junk, hs, s1, s2⟩, hnm, ht⟩ := hok
        subst f2
        have hset : vs.set A.length { v with elmts := v.elmts.take v.ct ++ [⟨key, fn⟩], ct := v.ct + 1 } =
            A ++ { v with elmts := v.elmts.take v.ct ++ [⟨key, fn⟩], ct := v.ct + 1 } :: (B ++ s :: junk) := by
          rw [hs, f1]; simp [List.set_append_right]
        rw [hset]
        exact findTab_append (by exact f3) hz (fun a ha => hnm a (by rw [f1]; simp [ha])) f4
      · have : c < vs.length := (List.getElem?_eq_some_iff.1 e2).1
        simp [this]
    · rw [g4] at hno; cases hno

/-- Removing an entry from a table. -/
theorem remove_tab {v : Tab φ} (hv : TabOk v) (key : UInt64) (x : Elt φ) {A B : List (Elt φ)} {e : Elt φ}
    (hs : v.elmts.take v.ct = A ++ e :: B) (he : e.hash = key) (hno : ∀ a ∈ A ++ B, a.hash ≠ key) :
    ∃ es, moveDown (some x) v.elmts A.length v.ct = .ok es ∧ TabOk { v with elmts := es, ct := v.ct - 1 } ∧
      ∀ k, Tab.find { v with elmts := es, ct := v.ct - 1 } k = if k = key then none else v.find k := by
  have hl : (v.elmts.take v.ct).length = v.ct := by rw [List.length_take]; have := hv.alloc; omega
  have hct : v.ct = A.length + B.length + 1 := by rw [← hl, hs]; simp; omega
  obtain ⟨T, hT⟩ : ∃ T, v.elmts = A ++ e :: B ++ T := ⟨v.elmts.drop v.ct, by rw [← hs, List.take_append_drop]⟩
  have key1 : ∀ es : List (Elt φ), es.take (v.ct - 1) = A ++ B → v.ct - 1 ≤ es.length →
      TabOk { v with elmts := es, ct := v.ct - 1 } ∧
      ∀ k, Tab.find { v with elmts := es, ct := v.ct - 1 } k = if k = key then none else v.find k := by
    intro es h1 h2
    have hpw := hv.keys
    rw [hs] at hpw
    refine ⟨⟨h2, ?_⟩, ?_⟩
    · show (es.take (v.ct - 1)).Pairwise _
      rw [h1]
      exact hpw.sublist (List.Sublist.append (List.Sublist.refl A) (List.sublist_cons_self e B))
    · intro k
      unfold Tab.find
      simp only [h1, hs]
      by_cases hk : k = key
      · subst hk
        rw [if_pos rfl, List.find?_eq_none.2 (by intro a ha; simpa using hno a ha)]; rfl
      · rw [if_neg hk, List.find?_append, List.find?_append, List.find?_cons_of_neg (by simp [he]; exact fun h => hk h.symm)]
  have htA : v.elmts.take A.length = A := by rw [hT]; simp
  have hdr : v.elmts.drop (A.length + 1) = B ++ T := by rw [hT]; simp
  have hsub : v.ct - A.length = B.length + 1 := by omega
  have hpre : ∀ S : List (Elt φ), (A ++ (B ++ S)).take (v.ct - 1) = A ++ B := by
    intro S
    rw [← List.append_assoc]
    exact List.take_left' (by simp; omega)
  have htk : ∀ S : List (Elt φ), (B ++ S).take (B.length + 1) = B ++ S.take 1 := by
    intro S
    rw [List.take_append, List.take_of_length_le (by omega)]; simp
  by_cases hcap : v.ct < v.elmts.length
  · refine ⟨_, by rw [moveDown, if_pos hcap], key1 _ ?_ ?_⟩
    · rw [htA, hdr, hsub, htk, List.append_assoc, List.append_assoc]; exact hpre _
    · rw [htA, hdr, hsub, htk]; simp; omega
  · refine ⟨_, by rw [moveDown, if_neg hcap], key1 _ ?_ ?_⟩
    · rw [htA, hdr, hsub, List.append_assoc B, htk, List.append_assoc, List.append_assoc]; exact hpre _
    · rw [htA, hdr, hsub, List.append_assoc B, htk]; simp; omega

/-- `drop`: the key is gone, and the answer says whether it was there. -/
theorem drop_live {r : Reg φ} {L : List (Tab φ)} (x : Elt φ) (h : Live r L) (tab : CStr) (key : UInt64) :
    ∃ r' L', drop (some x) r tab key = .ok (r', if (lookup L (djb2 tab) key).isSome then 0 else 1) ∧ Live r' L' ∧
      ∀ h' k', lookup L' h' k' = if h' = djb2 tab ∧ k' = key then none else lookup L h' k' := by
  cases r with
  | none =>
    have : L = [] := h
    subst this
    exact ⟨none, [], rfl, rfl, by intro h' k'; simp [lookup]⟩
  | some vs =>
    have hok : Ok vs L := h
    obtain ⟨c, v, e1, e2, e3⟩ := findTab_eq (djb2 tab) L vs hok
    rcases e3 with ⟨f1, f2, f3, f5⟩ | ⟨A, B, f1, f2, f3, f4⟩
    · have hl : ∀ k, lookup L (djb2 tab) k = none := fun k => by simp [lookup, f1]
      refine ⟨some vs, L, ?_, hok, ?_⟩
      · simp [drop, e1, rd_eq_ok.2 e2, f5, findElt, hl]
      · intro h' k'
        by_cases hh : h' = djb2 tab
        · subst hh; simp [hl]
        · simp [hh]
    · have hv : v ∈ L := by rw [f1]; simp
      rcases findElt_tab (hok.tabs v hv) key with ⟨g1, g2, g3⟩ | ⟨A', e, B', g1, g2, g3, g4, g5, g6, g7⟩
      · have hl : lookup L (djb2 tab) key = none := by rw [f1, lookup_split f3 f4, g1]
        refine ⟨some vs, L, ?_, hok, ?_⟩
        · simp [drop, e1, rd_eq_ok.2 e2, g2, hl]
        · intro h' k'
          by_cases hh : h' = djb2 tab ∧ k' = key
          · rw [if_pos hh, hh.1, hh.2, hl]
          · rw [if_neg hh]
      · have hl : lookup L (djb2 tab) key = some e.fn := by rw [f1, lookup_split f3 f4, g4]
        obtain ⟨es, m1, m2, m3⟩ := remove_tab (hok.tabs v hv) key x g1 g2 g7
        obtain ⟨w1, w2⟩ := live_replace hok f1 (v' := { v with elmts := es, ct := v.ct - 1 }) rfl m2
        refine ⟨some (vs.set A.length { v with elmts := es, ct := v.ct - 1 }), _, ?_, w2, ?_⟩
        · simp only [drop, e1, Res.bind_ok, rd_eq_ok.2 e2, g5, m1, hl]
          rw [← f2, w1]; rfl
        · intro h' k'
          by_cases hh : h' = djb2 tab
          · subst hh
            rw [lookup_split (by exact f3) f4, f1, lookup_split f3 f4, m3]
            by_cases hk : k' = key <;> simp [hk]
          · rw [if_neg (by simp [hh]), f1]
            exact lookup_other f3 (by exact f3) hh k'

/-! ## Specification -/

/-- What a user expects the registry to be: a map from a table's name and a key to a function. -/
abbrev Spec (φ : Type) := CStr → UInt64 → Option φ

/-- What a call is documented to do: a registration under a free key stores the function, a second one under the
same key changes nothing; a removal empties the key and answers 0 iff there was something under it. -/
def Spec.step (m : Spec φ) : Op φ → Spec φ × Nat
  | .add t f k => (fun t' k' => if t' = t ∧ k' = k ∧ m t k = none then some f else m t' k', 0)
  | .drop t k => (fun t' k' => if t' = t ∧ k' = k then none else m t' k', if m t k = none then 1 else 0)

def Spec.run (m : Spec φ) : List (Op φ) → Spec φ × List Nat
  | [] => (m, [])
  | o :: os =>
    let a := m.step o
    let b := Spec.run a.1 os
    (b.1, a.2 :: b.2)

/-- The table an operation names. -/
def Op.tab : Op φ → CStr
  | .add t _ _ => t
  | .drop t _ => t

theorem run_live {U : CStr → Prop} (hU : Usable U) (null : φ) (x : Elt φ) : ∀ (ops : List (Op φ)) (r : Reg φ) (L : List (Tab φ)) (m : Spec φ),
    (∀ o ∈ ops, U o.tab) → Live r L → (∀ t, U t → ∀ k, lookup L (djb2 t) k = m t k) →
    ∃ r' L', run null (some x) r ops = .ok (r', (Spec.run m ops).2) ∧ Live r' L' ∧
      ∀ t, U t → ∀ k, lookup L' (djb2 t) k = (Spec.run m ops).1 t k
  | [], r, L, m, _, hl, hm => ⟨r, L, rfl, hl, hm⟩
  | o :: ops, r, L, m, hu, hl, hm => by
    have huo := hu o (by simp)
    have hstep : ∃ r' L', step null (some x) r o = .ok (r', (m.step o).2) ∧ Live r' L' ∧ ∀ t, U t → ∀ k, lookup L' (djb2 t) k = (m.step o).1 t k := by
      cases o with
      | add t f k =>
        obtain ⟨r', L', a, b, c⟩ := add_live null hl t f k (hU.nonzero t huo)
        refine ⟨r', L', a, b, ?_⟩
        intro t' ht' k'
        rw [c, hm t' ht' k']
        show _ = if t' = t ∧ k' = k ∧ m t k = none then some f else m t' k'
        by_cases e : t' = t ∧ k' = k
        · obtain ⟨rfl, rfl⟩ := e; simp
        · rw [if_neg (fun h => e ⟨hU.inj _ _ ht' huo h.1, h.2.1⟩), if_neg]
          rintro ⟨p, q, -⟩
          exact e ⟨p, q⟩
      | drop t k =>
        obtain ⟨r', L', a, b, c⟩ := drop_live x hl t k
        refine ⟨r', L', ?_, b, ?_⟩
        · show drop _ _ _ _ = _
          rw [a, hm t huo k]
          show _ = Res.ok (r', if m t k = none then 1 else 0)
          cases m t k <;> simp
        · intro t' ht' k'
          rw [c, hm t' ht' k']
          show _ = if t' = t ∧ k' = k then none else m t' k'
          by_cases e : t' = t ∧ k' = k
          · obtain ⟨rfl, rfl⟩ := e; simp
          · rw [if_neg e, if_neg]
            rintro ⟨p, q⟩
            exact e ⟨hU.inj _ _ ht' huo p, q⟩
    obtain ⟨r1, L1, a1, b1, c1⟩ := hstep
    obtain ⟨r2, L2, a2, b2, c2⟩ := run_live hU null x ops r1 L1 (m.step o).1 (fun o' h => hu o' (by simp [h])) b1 c1
    refine ⟨r2, L2, ?_, b2, c2⟩
    simp [run, a1, a2, Spec.run]

/-- After any history of registrations and removals from program start, on tables whose names hash differently
and not to zero, every answer returned on the way and every lookup afterwards is the one the map gives.
Missing from the full claim: the over-read of `apop_vtable_drop` is taken to yield an arbitrary entry `x`
rather than be undefined (see the next theorem); names that hash alike; other threads. -/
theorem C25_map_partial {U : CStr → Prop} (hU : Usable U) (null : φ) (x : Elt φ) (ops : List (Op φ)) (hops : ∀ o ∈ ops, U o.tab) :
    ∃ r, run null (some x) none ops = .ok (r, (Spec.run (fun _ _ => none) ops).2) ∧
      ∀ t, U t → ∀ k, get r t k = .ok ((Spec.run (fun _ _ => none) ops).1 t k) := by
  obtain ⟨r, L, a, b, c⟩ := run_live hU null x ops none [] (fun _ _ => none) hops rfl (by intros; rfl)
  exact ⟨r, a, fun t ht k => by rw [get_live b, c t ht k]⟩

/-- Without a removal, no assumption on what lies past the block is needed. -/
theorem C25_adds {U : CStr → Prop} (hU : Usable U) (null : φ) (ops : List (Op φ)) (hops : ∀ o ∈ ops, U o.tab)
    (hadd : ∀ o ∈ ops, ∃ t f k, o = .add t f k) :
    ∃ r, run null none none ops = .ok (r, (Spec.run (fun _ _ => none) ops).2) ∧
      ∀ t, U t → ∀ k, get r t k = .ok ((Spec.run (fun _ _ => none) ops).1 t k) := by
  obtain ⟨r, a, b⟩ := C25_map_partial hU null ⟨0, null⟩ ops hops
  refine ⟨r, ?_, b⟩
  rw [← a]
  clear a b hops
  generalize (none : Reg φ) = q
  induction ops generalizing q with
  | nil => rfl
  | cons o os ih =>
    obtain ⟨t, f, k, rfl⟩ := hadd o (by simp)
    simp only [run, step]
    congr 1
    funext y
    obtain ⟨y, z⟩ := y
    simp only
    rw [ih (fun o h => hadd o (by simp [h]))]

/-- The claim is false as it stands: whatever the sound registry, removing a function just registered under a new
key reads an entry past the allocated block. -/
theorem C25_drop_overread_refuted {U : CStr → Prop} (hU : Usable U) (null fn : φ) (ops : List (Op φ)) (hops : ∀ o ∈ ops, U o.tab)
    (hadd : ∀ o ∈ ops, ∃ t f k, o = .add t f k) (tab : CStr) (ht : U tab) (key : UInt64)
    (hnew : ((Spec.run (fun _ _ => none) ops).1 tab key : Option φ) = none) :
    run null none none (ops ++ [.add tab fn key, .drop tab key]) = .ub := by
  obtain ⟨q, L, a', hlive, c⟩ := run_live hU null ⟨0, null⟩ ops none [] (fun _ _ => none) hops rfl (by intros; rfl)
  have hsame : run null none none ops = run null (some ⟨0, null⟩) none ops := by
    clear a' hops hnew c hlive
    generalize (none : Reg φ) = q
    induction ops generalizing q with
    | nil => rfl
    | cons o os ih =>
      obtain ⟨t, f, k, rfl⟩ := hadd o (by simp)
      simp only [run, step]
      congr 1
      funext y
      obtain ⟨y, z⟩ := y
      simp only
      rw [ih (fun o h => hadd o (by simp [h]))]
  have hsplit : ∀ (os os' : List (Op φ)) (q : Reg φ), run null none q (os ++ os') =
      (run null none q os >>= fun y => run null none y.1 os' >>= fun z => .ok (z.1, y.2 ++ z.2)) := by
    intro os
    induction os with
    | nil => intro os' q; simp only [List.nil_append, run, Res.bind_ok]; cases run null none q os' <;> simp
    | cons o os ih =>
      intro os' q
      simp only [List.cons_append, run]
      cases step null none q o with
      | ub => rfl
      | ok y =>
        simp only [Res.bind_ok]
        rw [ih]
        cases run null none y.1 os with
        | ub => rfl
        | ok z =>
          simp only [Res.bind_ok]
          cases run null none z.1 os' with
          | ub => rfl
          | ok w => rfl
  rw [hsplit, hsame, a']
  simp only [Res.bind_ok, run, step]
  have hno : lookup L (djb2 tab) key = none := by rw [c tab ht key]; exact hnew
  obtain ⟨r1, v, e1, e2, e3, e4⟩ := add_full null fn hlive tab key (hU.nonzero tab ht) hno
  obtain ⟨c1, f1, f2⟩ := e4
  have hd : drop none (some r1) tab key = .ub := by
    simp only [drop, f1, Res.bind_ok, rd_eq_ok.2 f2, e2, moveDown, if_neg (Nat.not_lt.2 (Nat.le_of_eq e3))]
    rfl
  rw [e1]
  simp only [Res.bind_ok, hd]
  rfl

/-- Names that hash differently exist: the two tables the library itself uses most. -/
example : Usable (fun t => t = str "estimate" ∨ t = str "predict") := by
  refine ⟨?_, ?_⟩
  · rintro t (rfl | rfl) <;> decide +kernel
  · rintro t u (rfl | rfl) (rfl | rfl) h
    · rfl
    · exact absurd h (by decide +kernel)
    · exact absurd h (by decide +kernel)
    · rfl

/-- A history: a second registration is ignored, a removal then a new registration replaces. -/
example : run (φ := Nat) 0 (some ⟨9, 9⟩) none [.add (str "t") 5 1, .add (str "t") 6 1, .drop (str "t") 1, .add (str "t") 7 1, .drop (str "u") 1] =
    .ok (some [⟨djb2 (str "t"), 1, [⟨1, 7⟩]⟩, sentinel], [0, 0, 0, 0, 1]) := by decide +kernel

end Apop.Vtable
