import Verif.Parse.Fields

/-! # Fixed width lines (C34) -/

namespace Apop.Parse

/-! ## Specification -/

/-- The ends ascend from `prev`. -/
def Ascending : Nat → List Nat → Prop
  | _, [] => True
  | prev, e :: es => prev < e ∧ Ascending e es

/-- The pieces of a line between the ends, the last one cut at the end of the line. -/
def split (prev : Nat) (line : List UInt8) : List Nat → List (List UInt8)
  | [] => []
  | e :: es => if line = [] then [] else line.take (e - prev) :: split e (line.drop (e - prev)) es

/-! ## The machine -/

/-- The machine has these fields done and is in the middle of `cur`. -/
structure FSim (m : Nat) (s : FSt) (fs : List (List UInt8)) (cur : Option (List UInt8)) : Prop where
  need : s.needfield = cur.isNone
  ct : s.ct = fs.length + (if cur.isSome then 1 else 0)
  mem : s.fn.length = max m s.ct
  held : ∀ (k : Nat) (d : List UInt8), fs[k]? = some d → ∃ b, s.fn[k]? = some b ∧ Holds b d
  cur : ∀ b, cur = some b → s.thisflen = b.length ∧ s.fn[fs.length]? = some (some (b.map some))

/-- After the character, before the end of the field is looked for: the string so far. -/
theorem fixed_write {m : Nat} {s : FSt} {fs : List (List UInt8)} {cur : Option (List UInt8)} (h : FSim m s fs cur) (c : UInt8) :
    ∃ fn', onField (if s.needfield ∧ (if s.needfield then s.ct + 1 else s.ct) > s.fn.length then s.fn ++ [none] else s.fn)
        ((if s.needfield then s.ct + 1 else s.ct) - 1)
        (fun b => writeBuf (reallocBuf b ((if s.needfield then 0 else s.thisflen) + 1)) ((if s.needfield then 0 else s.thisflen) + 1 - 1) c) = .ok fn' ∧
      (if s.needfield then s.ct + 1 else s.ct) = fs.length + 1 ∧ (if s.needfield then 0 else s.thisflen) + 1 = (cur.getD [] ++ [c]).length ∧
      fn'.length = max m (fs.length + 1) ∧ fn'[fs.length]? = some (some ((cur.getD [] ++ [c]).map some)) ∧
      ∀ (k : Nat) (d : List UInt8), fs[k]? = some d → ∃ b, fn'[k]? = some b ∧ Holds b d := by
  have hmem := h.mem
  cases hc : cur with
  | none =>
    have hn : s.needfield = true := by rw [h.need, hc]; rfl
    have hct : s.ct = fs.length := by have := h.ct; simp [hc] at this; exact this
    simp only [hn, if_true, true_and, Option.getD_none, List.nil_append, Nat.zero_add, Nat.add_sub_cancel, Nat.sub_self]
    have hfn : ∃ fn0, (if s.ct + 1 > s.fn.length then s.fn ++ [none] else s.fn) = fn0 ∧ s.ct < fn0.length ∧
        fn0.length = max m (s.ct + 1) ∧ ∀ k : Nat, k < s.ct → fn0[k]? = s.fn[k]? := by
      by_cases hg : s.ct + 1 > s.fn.length
      · refine ⟨_, if_pos hg, by simp; omega, by simp; omega, ?_⟩
        intro k hk
        rw [List.getElem?_append_left (by omega)]
      · exact ⟨_, if_neg hg, by omega, by omega, fun _ _ => rfl⟩
    obtain ⟨fn0, e1, e2, e3, e4⟩ := hfn
    rw [e1]
    have hold : fn0[s.ct]? = some fn0[s.ct] := List.getElem?_eq_getElem e2
    have hw : writeBuf (reallocBuf fn0[s.ct] 1) 0 c = .ok (some [some c]) := by
      unfold reallocBuf
      split
      · rfl
      · rename_i l _
        cases l with
        | nil => rfl
        | cons x l => simp [writeBuf, wr]
    refine ⟨fn0.set s.ct (some [some c]), onField_eq hold hw, by omega, by simp, by simp [e3, hct], ?_, ?_⟩
    · rw [← hct, List.getElem?_set_self e2]; rfl
    · intro k d hk
      have hk' : k < s.ct := by rw [hct]; exact (List.getElem?_eq_some_iff.1 hk).1
      obtain ⟨b, b1, b2⟩ := h.held k d hk
      exact ⟨b, by rw [List.getElem?_set_ne (by omega), e4 k hk']; exact b1, b2⟩
  | some b =>
    have hn : s.needfield = false := by rw [h.need, hc]; rfl
    have hct : s.ct = fs.length + 1 := by have := h.ct; simp [hc] at this; exact this
    obtain ⟨h1, h2⟩ := h.cur b hc
    have hlt : fs.length < s.fn.length := (List.getElem?_eq_some_iff.1 h2).1
    simp only [hn, Bool.false_eq_true, false_and, if_false, Option.getD_some, Nat.add_sub_cancel]
    rw [hct, Nat.add_sub_cancel]
    have hw : writeBuf (reallocBuf (some (b.map some)) (s.thisflen + 1)) s.thisflen c = .ok (some ((b ++ [c]).map some)) := by
      rw [h1]
      unfold reallocBuf writeBuf
      simp only
      have hrl : (b.map some).take (b.length + 1) ++ List.replicate (b.length + 1 - (b.map some).length) none = b.map some ++ [(none : Option UInt8)] := by
        rw [List.take_of_length_le (by simp), List.length_map, show b.length + 1 - b.length = 1 by omega]
        rfl
      rw [hrl, wr_of_lt (by simp)]
      simp [List.set_append]
    refine ⟨s.fn.set fs.length (some ((b ++ [c]).map some)), onField_eq h2 hw, rfl, by simp [h1], by simp only [List.length_set]; rw [hmem, hct], ?_, ?_⟩
    · rw [List.getElem?_set_self hlt]
    · intro k d hk
      have hk' : k < fs.length := (List.getElem?_eq_some_iff.1 hk).1
      obtain ⟨b', b1, b2⟩ := h.held k d hk
      exact ⟨b', by rw [List.getElem?_set_ne (by omega)]; exact b1, b2⟩

/-- Ending a string. -/
theorem fixed_close {fn : List Buf} {i : Nat} {b : List UInt8} (h : fn[i]? = some (some (b.map some))) :
    onField fn i (fun x => writeBuf (reallocBuf x (b.length + 1)) b.length 0) = .ok (fn.set i (some (b.map some ++ [some 0]))) := by
  apply onField_eq h
  unfold reallocBuf writeBuf
  simp only
  have hrl : (b.map some).take (b.length + 1) ++ List.replicate (b.length + 1 - (b.map some).length) none = b.map some ++ [(none : Option UInt8)] := by
    rw [List.take_of_length_le (by simp), List.length_map, show b.length + 1 - b.length = 1 by omega]
    rfl
  rw [hrl, wr_of_lt (by simp)]
  simp [List.set_append]

theorem holds_closed (b : List UInt8) : Holds (some (b.map some ++ [some 0])) b :=
  ⟨_, rfl, by rw [List.take_of_length_le (by simp)]⟩

theorem held_closed {fn : List Buf} {fs : List (List UInt8)} {b : List UInt8} (hlt : fs.length < fn.length)
    (h : ∀ (k : Nat) (d : List UInt8), fs[k]? = some d → ∃ b, fn[k]? = some b ∧ Holds b d) :
    ∀ (k : Nat) (d : List UInt8), (fs ++ [b])[k]? = some d → ∃ b', (fn.set fs.length (some (b.map some ++ [some 0])))[k]? = some b' ∧ Holds b' d := by
  intro k d hk
  by_cases hk' : k < fs.length
  · rw [List.getElem?_append_left hk'] at hk
    obtain ⟨b', b1, b2⟩ := h k d hk
    exact ⟨b', by rw [List.getElem?_set_ne (by omega)]; exact b1, b2⟩
  · have hlen : k < (fs ++ [b]).length := (List.getElem?_eq_some_iff.1 hk).1
    have hke : k = fs.length := by simp at hlen; omega
    subst hke
    rw [List.getElem?_append_right (Nat.le_refl _), Nat.sub_self] at hk
    simp at hk
    subst hk
    exact ⟨_, List.getElem?_set_self hlt, holds_closed b⟩

theorem fixed_step {m : Nat} {s : FSt} {fs : List (List UInt8)} {cur : Option (List UInt8)} (h : FSim m s fs cur) (c : UInt8) (e : Nat) (es : List Nat)
    (he : s.ends = e :: es) :
    ∃ s', fixedStep s c = .ok s' ∧ s'.posn = s.posn + 1 ∧
      (if s.posn + 1 = e then FSim m s' (fs ++ [cur.getD [] ++ [c]]) none ∧ s'.ends = es
       else FSim m s' fs (some (cur.getD [] ++ [c])) ∧ s'.ends = e :: es) := by
  obtain ⟨fn', w1, w2, w3, w4, w5, w6⟩ := fixed_write h c
  have hlt : fs.length < fn'.length := (List.getElem?_eq_some_iff.1 w5).1
  rw [fixedStep]
  simp only [w1, Res.bind_ok, he]
  by_cases hp : s.posn + 1 = e
  · rw [if_pos hp, w2, w3, Nat.add_sub_cancel, fixed_close w5]
    refine ⟨_, rfl, rfl, ?_⟩
    rw [if_pos hp]
    exact ⟨⟨rfl, by simp, by simp [w4], held_closed hlt w6, by simp⟩, rfl⟩
  · rw [if_neg hp]
    refine ⟨_, rfl, rfl, ?_⟩
    rw [if_neg hp]
    refine ⟨⟨rfl, by simp [w2], by simp [w4, w2], w6, ?_⟩, rfl⟩
    intro b hb
    simp only [Option.some.injEq] at hb
    subst hb
    exact ⟨w3, w5⟩

theorem fixed_end {m : Nat} {s : FSt} {fs : List (List UInt8)} {cur : Option (List UInt8)} (h : FSim m s fs cur) :
    ∃ s', fixedEnd s = .ok s' ∧ FSim m s' (fs ++ cur.toList) none ∨ ∃ s', fixedEnd s = .ok s' ∧ s'.ct = (fs ++ cur.toList).length ∧
      ∀ (k : Nat) (d : List UInt8), (fs ++ cur.toList)[k]? = some d → ∃ b, s'.fn[k]? = some b ∧ Holds b d := by
  cases hc : cur with
  | none =>
    have hn : s.needfield = true := by rw [h.need, hc]; rfl
    refine ⟨s, Or.inl ⟨by rw [fixedEnd, hn]; rfl, ?_⟩⟩
    subst hc
    simpa using h
  | some b =>
    have hn : s.needfield = false := by rw [h.need, hc]; rfl
    obtain ⟨h1, h2⟩ := h.cur b hc
    have hct : s.ct = fs.length + 1 := by have := h.ct; simp [hc] at this; exact this
    have hlt : fs.length < s.fn.length := (List.getElem?_eq_some_iff.1 h2).1
    refine ⟨s, Or.inr ⟨{ s with fn := s.fn.set fs.length (some (b.map some ++ [some 0])) }, ?_, by simp [hct], held_closed hlt h.held⟩⟩
    rw [fixedEnd, hn, h1, hct, Nat.add_sub_cancel, fixed_close h2]
    rfl

theorem fixed_end' {m : Nat} {s : FSt} {fs : List (List UInt8)} {cur : Option (List UInt8)} (h : FSim m s fs cur) :
    ∃ s', fixedEnd s = .ok s' ∧ s'.ct = (fs ++ cur.toList).length ∧
      ∀ (k : Nat) (d : List UInt8), (fs ++ cur.toList)[k]? = some d → ∃ b, s'.fn[k]? = some b ∧ Holds b d := by
  obtain ⟨_, h1 | h1⟩ := fixed_end h
  · exact ⟨_, h1.1, by have := h1.2.ct; simpa using this, h1.2.held⟩
  · exact h1

/-- The fields from the middle of a line. -/
def fin (cur : Option (List UInt8)) (posn : Nat) : List UInt8 → List Nat → List (List UInt8)
  | [], _ => cur.toList
  | _ :: _, [] => []
  | c :: r, e :: es => if posn + 1 = e then (cur.getD [] ++ [c]) :: fin none (posn + 1) r es else fin (some (cur.getD [] ++ [c])) (posn + 1) r (e :: es)

/-- What is left of the file is a line (without newline) and its end. -/
def lineEnd (nl : Bool) (rest : List UInt8) : List UInt8 := if nl then 10 :: rest else []

theorem fixed_loop {m : Nat} (nl : Bool) (rest : List UInt8) : ∀ (line : List UInt8) (s : FSt) (fs : List (List UInt8)) (cur : Option (List UInt8)),
    (10 : UInt8) ∉ line → FSim m s fs cur → Ascending s.posn s.ends → s.posn + line.length ≤ s.ends.getLastD s.posn →
    ∃ s', fixedLoop (line ++ lineEnd nl rest) s = .ok (s', !nl, if nl then rest else []) ∧ s'.ct = (fs ++ fin cur s.posn line s.ends).length ∧
      ∀ (k : Nat) (d : List UInt8), (fs ++ fin cur s.posn line s.ends)[k]? = some d → ∃ b, s'.fn[k]? = some b ∧ Holds b d
  | [], s, fs, cur, _, h, _, _ => by
    obtain ⟨s', e1, e2, e3⟩ := fixed_end' h
    refine ⟨s', ?_, by simpa [fin] using e2, by simpa [fin] using e3⟩
    cases nl
    · simp [lineEnd, fixedLoop, e1]
    · simp [lineEnd, fixedLoop, e1]
  | c :: line, s, fs, cur, hnl, h, ha, hlen => by
    simp only [List.mem_cons, not_or] at hnl
    cases he : s.ends with
    | nil => rw [he] at hlen; simp at hlen; omega
    | cons e es =>
      rw [he] at hlen ha
      obtain ⟨s1, f1, f2, f3⟩ := fixed_step h c e es he
      have hlast : (e :: es).getLastD s.posn = es.getLastD e := List.getLastD_cons ..
      rw [hlast, List.length_cons] at hlen
      rw [List.cons_append, fixedLoop, if_neg (fun hc => hnl.1 hc.symm), f1]
      simp only [Res.bind_ok, fin]
      by_cases hp : s.posn + 1 = e
      · rw [if_pos hp] at f3 ⊢
        obtain ⟨g1, g2⟩ := f3
        have := fixed_loop nl rest line s1 _ none hnl.2 g1 (by rw [f2, g2, hp]; exact ha.2) (by rw [f2, g2, hp]; omega)
        rw [f2, g2] at this
        simpa using this
      · rw [if_neg hp] at f3 ⊢
        obtain ⟨g1, g2⟩ := f3
        have := fixed_loop nl rest line s1 _ _ hnl.2 g1 (by rw [f2, g2]; exact ⟨by have := ha.1; omega, ha.2⟩)
          (by rw [f2, g2, List.getLastD_cons]; omega)
        rw [f2, g2] at this
        exact this

theorem fin_mid : ∀ (line : List UInt8) (cur : Option (List UInt8)) (posn e : Nat) (es : List Nat), posn < e → (line ≠ [] ∨ cur ≠ none) →
    fin cur posn line (e :: es) = (cur.getD [] ++ line.take (e - posn)) :: fin none e (line.drop (e - posn)) es
  | [], cur, posn, e, es, _, h => by
    cases hc : cur with
    | none => simp [hc] at h
    | some b => simp [fin]
  | c :: line, cur, posn, e, es, h, _ => by
    rw [fin]
    by_cases hp : posn + 1 = e
    · rw [if_pos hp, ← hp, show posn + 1 - posn = 1 by omega]
      simp
    · rw [if_neg hp, fin_mid line _ (posn + 1) e es (by omega) (Or.inr (by simp)), show e - posn = (e - (posn + 1)) + 1 by omega]
      simp

theorem fin_split : ∀ (es : List Nat) (line : List UInt8) (prev : Nat), Ascending prev es → prev + line.length ≤ es.getLastD prev →
    fin none prev line es = split prev line es
  | [], line, prev, _, hl => by
    have : line = [] := by
      have : line.length = 0 := by simp at hl; omega
      exact List.length_eq_zero_iff.1 this
    subst this
    rfl
  | e :: es, line, prev, ha, hl => by
    rw [split]
    by_cases hn : line = []
    · subst hn; simp [fin]
    · rw [if_neg hn, fin_mid line none prev e es ha.1 (Or.inl hn), fin_split es _ e ha.2]
      · rfl
      · have h1 := ha.1
        rw [List.getLastD_cons] at hl
        rw [List.length_drop]
        have hge : ∀ (es : List Nat) (e : Nat), Ascending e es → e ≤ es.getLastD e := by
          intro es
          induction es with
          | nil => intro e _; exact Nat.le_refl _
          | cons x es ih =>
            intro e h
            rw [List.getLastD_cons]
            exact Nat.le_trans (Nat.le_of_lt h.1) (ih x h.2)
        have := hge es e ha.2
        omega

/-! ## The theorems -/

/-- **C34 (lines no longer than the last end).** For ascending ends and any line up to the last of them, ended by a newline or the end of the file, and whatever earlier lines left
in the fields: the fields are the pieces of the line between the ends. Outside of this: longer lines (`C34_long_line_ub`). -/
theorem C34_fixed (line : List UInt8) (hl : (10 : UInt8) ∉ line) (h0 : (0 : UInt8) ∉ line) (ends : List Nat) (ha : Ascending 0 ends) (hlen : line.length ≤ ends.getLastD 0)
    (nl : Bool) (rest : List UInt8) (fn : List Buf) :
    ∃ s, fixedLoop (line ++ lineEnd nl rest) { fn := fn, ends := ends } = .ok (s, !nl, if nl then rest else []) ∧
      s.ct = (split 0 line ends).length ∧ takeStrs s.ct s.fn = .ok (split 0 line ends) := by
  have hsim : FSim fn.length { fn := fn, ends := ends } [] none := ⟨rfl, rfl, by simp, by simp, by simp⟩
  obtain ⟨s, h1, h2, h3⟩ := fixed_loop nl rest line _ [] none hl hsim ha (by simpa using hlen)
  simp only [List.nil_append] at h2 h3
  rw [fin_split ends line 0 ha (by simpa using hlen)] at h2 h3
  refine ⟨s, h1, h2, ?_⟩
  rw [h2, takeStrs_eq _ _ h3]
  refine congrArg Res.ok ?_
  have hno : ∀ d ∈ split 0 line ends, (0 : UInt8) ∉ d := by
    have : ∀ (es : List Nat) (p : Nat) (ln : List UInt8), (0 : UInt8) ∉ ln → ∀ d ∈ split p ln es, (0 : UInt8) ∉ d := by
      intro es
      induction es with
      | nil => intro p ln _ d hd; simp [split] at hd
      | cons e es ih =>
        intro p ln hln d hd
        rw [split] at hd
        by_cases hn : ln = []
        · simp [hn] at hd
        · rw [if_neg hn] at hd
          simp only [List.mem_cons] at hd
          rcases hd with rfl | hd
          · exact fun hm => hln (List.mem_of_mem_take hm)
          · exact ih e _ (fun hm => hln (List.mem_of_mem_drop hm)) d hd
    exact this ends 0 line h0
  conv => rhs; rw [← List.map_id (split 0 line ends)]
  apply List.map_congr_left
  intro d hd
  exact takeWhile_ne_zero (hno d hd)

/-- Nothing is lost or duplicated: the pieces together are the line. -/
theorem C34_split_flatten : ∀ (ends : List Nat) (prev : Nat) (line : List UInt8), Ascending prev ends → prev + line.length ≤ ends.getLastD prev →
    (split prev line ends).flatten = line
  | [], prev, line, _, hl => by
    have : line.length = 0 := by simp at hl; omega
    simp [split, List.length_eq_zero_iff.1 this]
  | e :: es, prev, line, ha, hl => by
    rw [split]
    by_cases hn : line = []
    · simp [hn]
    · have h1 := ha.1
      rw [List.getLastD_cons] at hl
      by_cases hs : line.length ≤ e - prev
      · have hd : line.drop (e - prev) = [] := List.drop_eq_nil_iff.2 hs
        have hsp : split e [] es = [] := by cases es <;> simp [split]
        rw [if_neg hn, List.flatten_cons, hd, hsp, List.take_of_length_le hs]
        simp
      · rw [if_neg hn, List.flatten_cons, C34_split_flatten es e _ ha.2 (by rw [List.length_drop]; omega), List.take_append_drop]

/-- The documented example: `123AABB` with ends 3, 5, 7. -/
example : Ascending 0 [3, 5, 7] ∧ split 0 (str "123AABB") [3, 5, 7] = [str "123", str "AA", str "BB"] ∧ (str "123AABB").length ≤ [3, 5, 7].getLastD 0 := by
  unfold Ascending Ascending Ascending Ascending
  decide +kernel

/-- **A line longer than the last end**: the array of ends is read past its end. -/
theorem C34_long_line_ub : ∀ (line : List UInt8) (ends : List Nat) (s : FSt) (fs : List (List UInt8)) (cur : Option (List UInt8)) (m : Nat) (rest : List UInt8), (10 : UInt8) ∉ line →
    FSim m s fs cur → s.ends = ends → Ascending s.posn ends → ends.getLastD s.posn < s.posn + line.length → fixedLoop (line ++ rest) s = .ub
  | [], ends, s, fs, cur, m, rest, _, _, _, ha, hlen => by
    exfalso
    have hge : ∀ (es : List Nat) (e : Nat), Ascending e es → e ≤ es.getLastD e := by
      intro es
      induction es with
      | nil => intro e _; exact Nat.le_refl _
      | cons x es ih =>
        intro e h
        rw [List.getLastD_cons]
        exact Nat.le_trans (Nat.le_of_lt h.1) (ih x h.2)
    have := hge ends s.posn ha
    simp only [List.length_nil, Nat.add_zero] at hlen
    omega
  | c :: line, ends, s, fs, cur, m, rest, hnl, h, he, ha, hlen => by
    simp only [List.mem_cons, not_or] at hnl
    rw [List.cons_append, fixedLoop, if_neg (fun hc => hnl.1 hc.symm)]
    cases ends with
    | nil =>
      obtain ⟨fn', w1, _⟩ := fixed_write h c
      have : fixedStep s c = .ub := by
        rw [fixedStep]
        simp only [w1, Res.bind_ok, he]
      rw [this]
      rfl
    | cons e es =>
      obtain ⟨s1, f1, f2, f3⟩ := fixed_step h c e es he
      rw [f1]
      simp only [Res.bind_ok]
      rw [List.getLastD_cons, List.length_cons] at hlen
      by_cases hp : s.posn + 1 = e
      · rw [if_pos hp] at f3
        exact C34_long_line_ub line es s1 _ none m rest hnl.2 f3.1 f3.2 (by rw [f2, hp]; exact ha.2) (by rw [f2, hp]; omega)
      · rw [if_neg hp] at f3
        exact C34_long_line_ub line (e :: es) s1 _ _ m rest hnl.2 f3.1 f3.2 (by rw [f2]; exact ⟨by have := ha.1; omega, ha.2⟩)
          (by rw [f2, List.getLastD_cons]; omega)

/-- From the start of a line: `123AABBC` with ends 3, 5, 7. -/
example (rest : List UInt8) (fn : List Buf) : fixedLoop ([49, 50, 51, 65, 65, 66, 66, 67] ++ rest) { fn := fn, ends := [3, 5, 7] } = .ub :=
  C34_long_line_ub _ [3, 5, 7] _ [] none fn.length rest (by decide) ⟨rfl, rfl, by simp, by simp, by simp⟩ rfl
    ⟨by show 0 < 3; decide, by decide, by decide, trivial⟩ (by show 7 < 0 + 8; decide)

/-- **C31 (fixed width).** As long as the line is no longer than the last end, every write is inside the field's block. -/
theorem C31_fixed_in_bounds (line : List UInt8) (hl : (10 : UInt8) ∉ line) (ends : List Nat) (ha : Ascending 0 ends) (hlen : line.length ≤ ends.getLastD 0)
    (nl : Bool) (rest : List UInt8) (fn : List Buf) :
    ∃ s strs, fixedLoop (line ++ lineEnd nl rest) { fn := fn, ends := ends } = .ok (s, !nl, if nl then rest else []) ∧ takeStrs s.ct s.fn = .ok strs := by
  have hsim : FSim fn.length { fn := fn, ends := ends } [] none := ⟨rfl, rfl, by simp, by simp, by simp⟩
  obtain ⟨s, h1, h2, h3⟩ := fixed_loop nl rest line _ [] none hl hsim ha (by simpa using hlen)
  exact ⟨s, _, h1, by rw [h2]; exact takeStrs_eq _ _ h3⟩

end Apop.Parse
