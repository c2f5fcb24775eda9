import Verif.Parse.Stream

/-! # One delimited line: the machine with buffers does what a machine with plain lists does -/

namespace Apop.Parse

/-- The fields finished so far, the field being read (its bytes, and how many of them are up to the last one that is not
white), whether inside quotes, whether the last character was a white delimiter. -/
structure A where
  fields : List (List UInt8) := []
  cur : Option (List UInt8 × Nat) := none
  inqq : Bool := false
  lastwhite : Bool := false
  deriving DecidableEq

/-- What a character does to the field being read, if any. -/
def A.put (a : A) (ty : Ty) (c : UInt8) : A :=
  match a.cur with
  | none =>
    if ty = .reg then { a with cur := some ([c], 1) }
    else if ty = .delim ∨ ((ty = .nl ∨ ty = .eof) ∧ a.fields ≠ []) then { a with fields := a.fields ++ [[]] }
    else a
  | some (b, n) =>
    if ty = .delim ∨ ty = .nl ∨ ty = .eof ∨ ty = .WD then { a with fields := a.fields ++ [b.take n], cur := none }
    else if ty = .ws then { a with cur := some (b ++ [c], n) }
    else if ty = .reg then { a with cur := some (b ++ [c], b.length + 1) }
    else a

/-- What a character does: a white delimiter after another is skipped. -/
def A.act (a : A) (ty : Ty) (c : UInt8) : A :=
  if ty = .WD ∧ a.lastwhite = true then a
  else ({ a with lastwhite := decide (ty = .WD) } : A).put ty c

/-- The block holds the string and its terminating NUL. -/
def Holds (b : Buf) (d : List UInt8) : Prop := ∃ l, b = some l ∧ l.take (d.length + 1) = d.map some ++ [some 0]

/-- The machine `s` is in the abstract state `a`, with `m` fields' memory there at the start. -/
structure Sim (m : Nat) (s : St) (a : A) : Prop where
  inqq : s.inqq = a.inqq
  lw : s.lastwhite = a.lastwhite
  infield : s.infield = a.cur.isSome
  ct : s.ct = a.fields.length + (if a.cur.isSome then 1 else 0)
  mem : s.fn.length = max m s.ct
  held : ∀ (k : Nat) (d : List UInt8), a.fields[k]? = some d → ∃ b, s.fn[k]? = some b ∧ Holds b d
  idle : a.cur = none → s.lastnonwhite = 0
  cur : ∀ b n, a.cur = some (b, n) → s.thisflen = b.length ∧ s.lastnonwhite = n ∧ n ≤ b.length ∧
    ∃ l, s.fn[a.fields.length]? = some (some l) ∧ l.length = s.mlen ∧ b.length + 2 ≤ s.mlen ∧ l.take b.length = b.map some

theorem onField_eq {fn : List Buf} {i : Nat} {b b' : Buf} {f : Buf → Res Buf} (h : fn[i]? = some b) (hf : f b = .ok b') :
    onField fn i f = .ok (fn.set i b') := by
  have hi := (List.getElem?_eq_some_iff.1 h).1
  rw [onField, rd_eq_ok.2 h]
  simp only [Res.bind_ok]
  rw [hf]
  simp only [Res.bind_ok]
  rw [wr_of_lt hi]

theorem start_sim {m : Nat} {s : St} {a : A} (h : Sim m s a) (hc : a.cur = none) :
    ∃ s', startField s = .ok s' ∧ Sim m s' { a with cur := some ([], 0) } := by
  have hct : s.ct = a.fields.length := by have := h.ct; simp [hc] at this; exact this
  -- the memory with a row for the new field
  have hfn : ∃ fn', (if s.ct + 1 > s.fn.length then s.fn ++ [none] else s.fn) = fn' ∧ s.ct < fn'.length ∧
      fn'.length = max m (s.ct + 1) ∧ ∀ k : Nat, k < s.ct → fn'[k]? = s.fn[k]? := by
    have hm := h.mem
    by_cases hg : s.ct + 1 > s.fn.length
    · refine ⟨_, if_pos hg, by simp; omega, by simp; omega, ?_⟩
      intro k hk
      rw [List.getElem?_append_left (by omega)]
    · exact ⟨_, if_neg hg, by omega, by omega, fun _ _ => rfl⟩
  obtain ⟨fn', e1, e2, e3, e4⟩ := hfn
  have hold : fn'[s.ct]? = some fn'[s.ct] := List.getElem?_eq_getElem e2
  refine ⟨{ s with fn := fn'.set s.ct (reallocBuf fn'[s.ct] 5), ct := s.ct + 1, thisflen := 0, mlen := 5, infield := true }, ?_, ?_⟩
  · rw [startField]
    simp only [e1]
    rw [onField_eq (b' := reallocBuf fn'[s.ct] 5) hold rfl]
    rfl
  · refine ⟨h.inqq, h.lw, rfl, by simp [hct], by simp [e3], ?_, by simp, ?_⟩
    · intro k d hk
      have hk' : k < s.ct := by rw [hct]; exact (List.getElem?_eq_some_iff.1 hk).1
      obtain ⟨b, b1, b2⟩ := h.held k d hk
      exact ⟨b, by simp only; rw [List.getElem?_set_ne (by omega), e4 k hk']; exact b1, b2⟩
    · intro b n hb
      simp only [Option.some.injEq, Prod.mk.injEq] at hb
      obtain ⟨rfl, rfl⟩ := hb
      have hl : ∃ l, reallocBuf fn'[s.ct] 5 = some l ∧ l.length = 5 := by
        unfold reallocBuf
        split
        · exact ⟨_, rfl, by simp⟩
        · exact ⟨_, rfl, by simp; omega⟩
      obtain ⟨l, l1, l2⟩ := hl
      refine ⟨rfl, h.idle hc, Nat.le_refl _, l, ?_, l2, by simp, by simp⟩
      simp only
      rw [← hct, List.getElem?_set_self e2, l1]

theorem close_sim {m : Nat} {s : St} {a : A} (h : Sim m s a) (b : List UInt8) (n : Nat) (hc : a.cur = some (b, n)) :
    ∃ s', closeField s = .ok s' ∧ Sim m s' { a with fields := a.fields ++ [b.take n], cur := none } := by
  obtain ⟨h1, h2, h3, l, h4, h5, h6, h7⟩ := h.cur b n hc
  have hct : s.ct = a.fields.length + 1 := by have := h.ct; simp [hc] at this; exact this
  have hlt : a.fields.length < s.fn.length := (List.getElem?_eq_some_iff.1 h4).1
  have hw : writeBuf (some l) s.lastnonwhite 0 = .ok (some (l.set n (some 0))) := by
    rw [h2, writeBuf, wr_of_lt (by omega)]; rfl
  refine ⟨{ s with fn := s.fn.set a.fields.length (some (l.set n (some 0))), infield := false, thisflen := 0, lastnonwhite := 0 }, ?_, ?_⟩
  · rw [closeField, hct, Nat.add_sub_cancel, onField_eq h4 hw]; simp [hct]
  · refine ⟨h.inqq, h.lw, rfl, by simp [hct], by simpa [List.length_set] using h.mem, ?_, fun _ => rfl, by simp⟩
    intro k d hk
    by_cases hk' : k < a.fields.length
    · rw [List.getElem?_append_left hk'] at hk
      obtain ⟨b', b1, b2⟩ := h.held k d hk
      exact ⟨b', by simp only; rw [List.getElem?_set_ne (by omega)]; exact b1, b2⟩
    · rw [List.getElem?_append_right (by omega)] at hk
      have hk0 : k - a.fields.length = 0 := by
        have := (List.getElem?_eq_some_iff.1 hk).1
        simpa using this
      have hke : k = a.fields.length := by omega
      subst hke
      simp only [Nat.sub_self, List.getElem?_cons_zero, Option.some.injEq] at hk
      subst hk
      refine ⟨_, by simp only; rw [List.getElem?_set_self hlt], l.set n (some 0), rfl, ?_⟩
      have htl : (b.take n).length = n := by simp; omega
      rw [htl]
      apply List.ext_getElem?
      intro i
      by_cases hi : i < n
      · rw [List.getElem?_take_of_lt (by omega), List.getElem?_set_ne (by omega), List.getElem?_append_left (by simp; omega),
          List.getElem?_map, List.getElem?_take_of_lt hi]
        have := congrArg (·[i]?) h7
        simp only [List.getElem?_map] at this
        rw [List.getElem?_take_of_lt (by omega)] at this
        exact this
      · by_cases hin : i = n
        · subst hin
          rw [List.getElem?_take_of_lt (by omega), List.getElem?_set_self (by omega), List.getElem?_append_right (by simp; omega)]
          rw [List.length_map, htl, Nat.sub_self]; rfl
        · rw [List.getElem?_eq_none (by simp; omega), List.getElem?_eq_none (by simp; omega)]

theorem take_getElem? {l : List (Option UInt8)} {b : List UInt8} (h : l.take b.length = b.map some) {i : Nat} (hi : i < b.length) :
    l[i]? = some (b[i]?) := by
  have := congrArg (·[i]?) h
  simp only [List.getElem?_map] at this
  rw [List.getElem?_take_of_lt hi] at this
  rw [this, List.getElem?_eq_getElem hi]; rfl

theorem extend_sim {m : Nat} {s : St} {a : A} (h : Sim m s a) (b : List UInt8) (n : Nat) (hc : a.cur = some (b, n)) (ty : Ty) (c : UInt8) :
    ∃ s', extendField s ty c = .ok s' ∧ Sim m s' { a with cur := some (b ++ [c], if ty = .ws then n else b.length + 1) } := by
  obtain ⟨h1, h2, h3, l, h4, h5, h6, h7⟩ := h.cur b n hc
  have hct : s.ct = a.fields.length + 1 := by have := h.ct; simp [hc] at this; exact this
  have hlt : a.fields.length < s.fn.length := (List.getElem?_eq_some_iff.1 h4).1
  -- after the possible realloc
  have hre : ∃ fn' l' mlen', (if s.thisflen + 1 + 2 > s.mlen then s.mlen * 2 else s.mlen) = mlen' ∧
      (if s.thisflen + 1 + 2 > s.mlen then onField s.fn (s.ct - 1) (fun b => .ok (reallocBuf b mlen')) else .ok s.fn : Res (List Buf)) = .ok fn' ∧
      fn'.length = s.fn.length ∧ fn'[a.fields.length]? = some (some l') ∧ l'.length = mlen' ∧ b.length + 3 ≤ mlen' ∧
      (∀ i : Nat, i < b.length → l'[i]? = some (b[i]?)) ∧ ∀ k : Nat, k < a.fields.length → fn'[k]? = s.fn[k]? := by
    by_cases hg : s.thisflen + 1 + 2 > s.mlen
    · simp only [hg, if_true]
      refine ⟨s.fn.set a.fields.length (reallocBuf (some l) (s.mlen * 2)), l.take (s.mlen * 2) ++ List.replicate (s.mlen * 2 - l.length) none,
        s.mlen * 2, rfl, ?_, by simp, ?_, ?_, by omega, ?_, ?_⟩
      · rw [hct, Nat.add_sub_cancel]
        exact onField_eq (f := fun b => .ok (reallocBuf b (s.mlen * 2))) (b' := reallocBuf (some l) (s.mlen * 2)) h4 rfl
      · rw [List.getElem?_set_self hlt]; rfl
      · simp only [List.length_append, List.length_take, List.length_replicate]; omega
      · intro i hi
        rw [List.getElem?_append_left (by simp only [List.length_take]; omega), List.getElem?_take_of_lt (by omega)]
        exact take_getElem? h7 hi
      · intro k hk
        rw [List.getElem?_set_ne (by omega)]
    · simp only [hg, if_false]
      exact ⟨s.fn, l, s.mlen, rfl, rfl, rfl, h4, h5, by omega, fun i hi => take_getElem? h7 hi, fun _ _ => rfl⟩
  obtain ⟨fn', l', mlen', r1, r2, r3, r4, r5, r6, r7, r8⟩ := hre
  have hw : writeBuf (some l') (s.thisflen + 1 - 1) c = .ok (some (l'.set b.length (some c))) := by
    rw [Nat.add_sub_cancel, h1, writeBuf, wr_of_lt (by omega)]; rfl
  refine ⟨{ s with fn := fn'.set a.fields.length (some (l'.set b.length (some c))), thisflen := s.thisflen + 1, mlen := mlen', lastnonwhite := (if ty = .ws then s.lastnonwhite else s.thisflen + 1) }, ?_, ?_⟩
  · rw [extendField]
    simp only [r1]
    rw [r2]
    simp only [Res.bind_ok]
    rw [hct, Nat.add_sub_cancel, onField_eq r4 hw]
    simp [hct]
  · refine ⟨h.inqq, h.lw, by simp [h.infield, hc], by simp [hct], by simp only [List.length_set]; rw [r3]; exact h.mem, ?_, by simp, ?_⟩
    · intro k d hk
      have hk' : k < a.fields.length := (List.getElem?_eq_some_iff.1 hk).1
      obtain ⟨b', b1, b2⟩ := h.held k d hk
      exact ⟨b', by simp only; rw [List.getElem?_set_ne (by omega), r8 k hk']; exact b1, b2⟩
    · intro b' n' hb
      simp only [Option.some.injEq, Prod.mk.injEq] at hb
      obtain ⟨rfl, rfl⟩ := hb
      refine ⟨by simp [h1], by simp only [h1, h2], ?_, l'.set b.length (some c), ?_, by simp [r5], by simp; omega, ?_⟩
      · simp only [List.length_append, List.length_singleton]; split <;> omega
      · simp only; rw [List.getElem?_set_self (by rw [r3]; exact hlt)]
      · apply List.ext_getElem?
        intro i
        simp only [List.length_append, List.length_singleton]
        by_cases hi : i < b.length
        · rw [List.getElem?_take_of_lt (by omega), List.getElem?_set_ne (by omega), r7 i hi, List.getElem?_map,
            List.getElem?_append_left hi, List.getElem?_eq_getElem hi]; rfl
        · by_cases hin : i = b.length
          · subst hin
            rw [List.getElem?_take_of_lt (by omega), List.getElem?_set_self (by omega), List.getElem?_map,
              List.getElem?_append_right (Nat.le_refl _)]
            simp
          · rw [List.getElem?_eq_none (by simp only [List.length_take, List.length_set]; omega), List.getElem?_eq_none (by simp; omega)]

theorem inField_sim {m : Nat} {s : St} {a : A} (h : Sim m s a) (b : List UInt8) (n : Nat) (hc : a.cur = some (b, n)) (ty : Ty) (c : UInt8) :
    ∃ s', inField s ty c = .ok s' ∧ Sim m s' (a.put ty c) := by
  have hin : s.infield = true := by rw [h.infield, hc]; rfl
  unfold inField A.put
  rw [hin]
  simp only [hc, if_true]
  by_cases h1 : ty = .delim ∨ ty = .nl ∨ ty = .eof ∨ ty = .WD
  · rw [if_pos h1, if_pos h1]; exact close_sim h b n hc
  · rw [if_neg h1, if_neg h1]
    by_cases h2 : ty = .ws
    · rw [if_pos (Or.inl h2), if_pos h2]
      have := extend_sim h b n hc ty c
      rw [if_pos h2] at this
      exact this
    · rw [if_neg h2]
      by_cases h3 : ty = .reg
      · rw [if_pos (Or.inr h3), if_pos h3]
        have := extend_sim h b n hc ty c
        rw [if_neg h2] at this
        exact this
      · rw [if_neg (by simp [h2, h3]), if_neg h3]
        exact ⟨s, rfl, h⟩

theorem act_sim {m : Nat} {s : St} {a : A} (h : Sim m s a) (ty : Ty) (c : UInt8) :
    ∃ s', act s ty c = .ok s' ∧ Sim m s' (a.act ty c) := by
  unfold act A.act
  rw [h.lw]
  by_cases hw : ty = .WD ∧ a.lastwhite = true
  · rw [if_pos hw, if_pos hw]; exact ⟨s, rfl, h⟩
  · rw [if_neg hw, if_neg hw]
    have h' : Sim m { s with lastwhite := decide (ty = .WD) } { a with lastwhite := decide (ty = .WD) } :=
      ⟨h.inqq, rfl, h.infield, h.ct, h.mem, h.held, h.idle, h.cur⟩
    revert h'
    generalize ({ s with lastwhite := decide (ty = .WD) } : St) = s1
    generalize ({ a with lastwhite := decide (ty = .WD) } : A) = a1
    intro h'
    simp only
    cases hc : a1.cur with
    | some y =>
      obtain ⟨b, n⟩ := y
      have hin : s1.infield = true := by rw [h'.infield, hc]; rfl
      rw [if_neg (by simp [hin]), if_neg (by simp [hin])]
      exact inField_sim h' b n hc ty c
    | none =>
      have hin : s1.infield = false := by rw [h'.infield, hc]; rfl
      have hct : s1.ct = a1.fields.length := by have := h'.ct; simp [hc] at this; exact this
      by_cases hws : ty = .ws
      · rw [if_pos ⟨hin, hws⟩]
        refine ⟨s1, rfl, ?_⟩
        unfold A.put
        simp only [hc, hws]
        simpa using h'
      · rw [if_neg (by simp [hws])]
        by_cases hst : starts s1 ty = true
        · rw [if_pos ⟨hin, hst⟩]
          obtain ⟨s2, e1, e2⟩ := start_sim h' hc
          obtain ⟨s3, e3, e4⟩ := inField_sim e2 [] 0 rfl ty c
          refine ⟨s3, by rw [e1]; exact e3, ?_⟩
          have : ({ a1 with cur := some ([], 0) } : A).put ty c = a1.put ty c := by
            unfold A.put
            simp only [hc]
            unfold starts at hst
            by_cases hr : ty = .reg
            · simp [hr]
            · by_cases hd : ty = .delim
              · simp [hd, hc]
              · simp only [hr, hd, decide_false, Bool.false_or, Bool.or_eq_true, Bool.and_eq_true, decide_eq_true_eq, hct] at hst
                obtain ⟨h1, h2⟩ := hst
                have hne : a1.fields ≠ [] := List.length_pos_iff.1 h2
                rcases h1 with rfl | rfl <;> simp [hne, hc]
          rw [this] at e4
          exact e4
        · rw [if_neg (by simp [hst])]
          refine ⟨s1, by rw [inField, hin]; rfl, ?_⟩
          have : a1.put ty c = a1 := by
            unfold A.put
            simp only [hc]
            unfold starts at hst
            simp only [Bool.not_eq_true, Bool.or_eq_false_iff, decide_eq_false_iff_not, Bool.and_eq_false_iff] at hst
            obtain ⟨⟨h1, h2⟩, h3⟩ := hst
            rw [if_neg h1, if_neg]
            rintro (h | ⟨h, hne⟩)
            · exact h2 h
            · rcases h3 with h3 | h3
              · rcases h with h | h
                · exact h3.1 h
                · exact h3.2 h
              · rw [hct] at h3
                exact h3 (List.length_pos_iff.2 hne)
          rw [this]; exact h'

/-! ## Lines as lists -/

/-- Reading plain characters, right after a backslash, or in a comment. -/
inductive Mode where
  | plain | escaped | comment
  deriving DecidableEq

/-- A line read from a list of bytes: the final state, whether the end of the file was seen as such, and the number of
characters read (`pos` at the start); the end of the file counts as one. -/
def absLine (delims : CStr) : Mode → List UInt8 → A → Nat → A × Bool × Nat
  | .comment, [], a, pos => (a.act .nl 35, false, pos + 1)
  | .comment, c :: r, a, pos => if c = 10 then (a.act .nl 35, false, pos + 1) else absLine delims .comment r a (pos + 1)
  | .escaped, [], a, pos => (a.act .eof 255, true, pos + 1)
  | .escaped, c :: r, a, pos => absLine delims .plain r (a.act .reg c) (pos + 1)
  | .plain, [], a, pos => (a.act .eof 255, true, pos + 1)
  | .plain, c :: r, a, pos =>
    if classify delims (some c) = .hash ∧ a.inqq = false then absLine delims .comment r a (pos + 1)
    else if classify delims (some c) = .bslash then absLine delims .escaped r a (pos + 1)
    else
      let ty := requote a.inqq (classify delims (some c))
      let a' := ({ a with inqq := switchq a.inqq (classify delims (some c)) } : A).act ty c
      if ty = .nl then (a', false, pos + 1) else absLine delims .plain r a' (pos + 1)

/-- The characters the parser sees are those of `bytes`, then the end. -/
def Shows (seq : Seq) (bytes : List UInt8) : Prop := ∀ k, k ≤ bytes.length → seq k = .ok (bytes[k]?)

theorem drop_cons {bytes : List UInt8} {pos : Nat} {c : UInt8} {r : List UInt8} (h : bytes.drop pos = c :: r) :
    bytes[pos]? = some c ∧ bytes.drop (pos + 1) = r ∧ pos < bytes.length := by
  have h0 : (bytes.drop pos)[0]? = some c := by rw [h]; rfl
  have h1 : bytes[pos]? = some c := by simpa using h0
  refine ⟨h1, ?_, (List.getElem?_eq_some_iff.1 h1).1⟩
  rw [← List.drop_drop, h]; rfl

theorem drop_nil {bytes : List UInt8} {pos : Nat} (hp : pos ≤ bytes.length) (h : bytes.drop pos = []) : bytes[pos]? = none ∧ pos = bytes.length := by
  have := List.drop_eq_nil_iff.1 h
  exact ⟨List.getElem?_eq_none this, by omega⟩

theorem skip_eq {seq : Seq} {bytes : List UInt8} (hs : Shows seq bytes) (delims : CStr) (a : A) :
    ∀ (r : List UInt8) (fuel pos : Nat), pos ≤ bytes.length → bytes.drop pos = r → r.length < fuel →
      ∃ pos', skipComment seq fuel pos = .done pos' ∧ absLine delims .comment r a pos = (a.act .nl 35, false, pos')
  | [], f + 1, pos, hp, hd, _ => by
    obtain ⟨h1, h2⟩ := drop_nil hp hd
    refine ⟨pos + 1, ?_, by rw [absLine]⟩
    rw [skipComment, hs pos hp, h1]
    simp
  | c :: r, f + 1, pos, hp, hd, hf => by
    obtain ⟨h1, h2, h3⟩ := drop_cons hd
    rw [skipComment, hs pos hp, h1, absLine]
    by_cases hc : c = 10
    · exact ⟨pos + 1, by simp [hc], by simp [hc]⟩
    · simp only [Option.some.injEq, hc, reduceCtorEq, or_self, if_false]
      exact skip_eq hs delims a r f (pos + 1) (by omega) h2 (by simp at hf; omega)

theorem classify_none {delims : CStr} (h : (255 : UInt8) ∉ delims) : classify delims none = .eof := by
  simp [classify, isDelim, h]

/-- **The line parser refines the list machine.** -/
theorem loop_sim {seq : Seq} {bytes : List UInt8} (hs : Shows seq bytes) {delims : CStr} (hd255 : (255 : UInt8) ∉ delims) {m : Nat} :
    ∀ (fuel pos : Nat) (s : St) (a : A), pos ≤ bytes.length → (bytes.drop pos).length < fuel → Sim m s a →
      ∃ s', lineLoop seq delims fuel pos s =
        .done (s', (absLine delims .plain (bytes.drop pos) a pos).2.1, (absLine delims .plain (bytes.drop pos) a pos).2.2) ∧
        Sim m s' (absLine delims .plain (bytes.drop pos) a pos).1
  | 0, _, _, _, _, h, _ => by omega
  | f + 1, pos, s, a, hp, hf, h => by
    have hq := h.inqq
    rw [lineLoop]
    cases hr : bytes.drop pos with
    | nil =>
      obtain ⟨h1, h2⟩ := drop_nil hp hr
      obtain ⟨s', e1, e2⟩ := act_sim h .eof 255
      have htok : readTok seq delims f s.inqq pos = .done (.eof, 255, pos + 1) := by
        rw [readTok, hs pos hp, h1]
        simp [classify_none hd255, theChar]
      rw [htok]
      have hrq : requote s.inqq .eof = .eof := by simp [requote]
      have hsq : switchq s.inqq .eof = s.inqq := by simp [switchq]
      simp only [Run.bind_done, hrq, hsq]
      rw [e1]
      exact ⟨s', rfl, e2⟩
    | cons c r =>
      obtain ⟨h1, h2, h3⟩ := drop_cons hr
      have hrl : r.length < f := by rw [hr] at hf; simp at hf; omega
      rw [absLine]
      by_cases hh : classify delims (some c) = .hash ∧ a.inqq = false
      · rw [if_pos hh]
        obtain ⟨pos', k1, k2⟩ := skip_eq hs delims a r f (pos + 1) (by omega) h2 hrl
        have htok : readTok seq delims f s.inqq pos = .done (.nl, c, pos') := by
          rw [readTok, hs pos hp, h1]
          simp only [Run.ofRes_ok, Run.bind_done, hq]
          rw [if_pos hh, k1]
          rfl
        rw [htok, k2]
        have hin : s.inqq = false := by rw [hq]; exact hh.2
        have hrq : requote s.inqq .nl = .nl := by simp [requote, hin]
        have hsq : switchq s.inqq .nl = s.inqq := by simp [switchq]
        simp only [Run.bind_done, hrq, hsq]
        obtain ⟨s', e1, e2⟩ := act_sim h .nl c
        rw [e1]
        refine ⟨s', rfl, ?_⟩
        have : a.act .nl c = a.act .nl 35 := by
          unfold A.act A.put
          simp
        rw [this] at e2
        exact e2
      · rw [if_neg hh]
        by_cases hb : classify delims (some c) = .bslash
        · rw [if_pos hb]
          cases hr2 : r with
          | nil =>
            subst hr2
            obtain ⟨g1, g2⟩ := drop_nil (by omega) h2
            have htok : readTok seq delims f s.inqq pos = .done (.eof, 255, pos + 2) := by
              rw [readTok, hs pos hp, h1]
              simp only [Run.ofRes_ok, Run.bind_done, hq]
              rw [if_neg hh, if_pos hb, hs (pos + 1) (by omega), g1]
              simp [classify_none hd255, theChar]
            rw [htok, absLine]
            have hrq : requote s.inqq .eof = .eof := by simp [requote]
            have hsq : switchq s.inqq .eof = s.inqq := by simp [switchq]
            simp only [Run.bind_done, hrq, hsq]
            obtain ⟨s', e1, e2⟩ := act_sim h .eof 255
            rw [e1]
            exact ⟨s', rfl, e2⟩
          | cons d r' =>
            subst hr2
            obtain ⟨g1, g2, g3⟩ := drop_cons h2
            have hne : classify delims (some d) ≠ .eof := by
              simp only [classify]
              repeat' split
              all_goals simp
            have htok : readTok seq delims f s.inqq pos = .done (.reg, d, pos + 2) := by
              rw [readTok, hs pos hp, h1]
              simp only [Run.ofRes_ok, Run.bind_done, hq]
              rw [if_neg hh, if_pos hb, hs (pos + 1) (by omega), g1]
              simp [hne, theChar]
            rw [htok, absLine]
            have hrq : requote s.inqq .reg = .reg := by simp [requote]
            have hsq : switchq s.inqq .reg = s.inqq := by simp [switchq]
            simp only [Run.bind_done, hrq, hsq]
            obtain ⟨s1, e1, e2⟩ := act_sim h .reg d
            rw [e1]
            simp only [Run.ofRes_ok, Run.bind_done]
            rw [if_neg (by simp)]
            obtain ⟨s', k1, k2⟩ := loop_sim hs hd255 f (pos + 2) s1 (a.act .reg d) (by omega)
              (by rw [show pos + 2 = pos + 1 + 1 by omega, g2]; simp at hrl; omega) e2
            rw [show pos + 2 = pos + 1 + 1 by omega, g2] at k1 k2
            exact ⟨s', k1, k2⟩
        · rw [if_neg hb]
          have htok : readTok seq delims f s.inqq pos = .done (classify delims (some c), c, pos + 1) := by
            rw [readTok, hs pos hp, h1]
            simp only [Run.ofRes_ok, Run.bind_done, hq]
            rw [if_neg hh, if_neg hb]
            rfl
          rw [htok]
          simp only [Run.bind_done, hq]
          have h' : Sim m { s with inqq := switchq a.inqq (classify delims (some c)) } { a with inqq := switchq a.inqq (classify delims (some c)) } :=
            ⟨rfl, h.lw, h.infield, h.ct, h.mem, h.held, h.idle, h.cur⟩
          obtain ⟨s1, e1, e2⟩ := act_sim h' (requote a.inqq (classify delims (some c))) c
          rw [e1]
          simp only [Run.ofRes_ok, Run.bind_done]
          have hne : requote a.inqq (classify delims (some c)) ≠ .eof := by
            have : classify delims (some c) ≠ .eof := by
              simp only [classify]
              repeat' split
              all_goals simp
            unfold requote
            split
            · simp
            · exact this
          by_cases hnl : requote a.inqq (classify delims (some c)) = .nl
          · rw [if_pos (Or.inl hnl), if_pos hnl]
            exact ⟨s1, by simp [hne], e2⟩
          · rw [if_neg (by simp [hnl, hne]), if_neg hnl]
            obtain ⟨s', k1, k2⟩ := loop_sim hs hd255 f (pos + 1) s1 _ (by omega) (by rw [h2]; exact hrl) e2
            rw [h2] at k1 k2
            exact ⟨s', k1, k2⟩

end Apop.Parse
