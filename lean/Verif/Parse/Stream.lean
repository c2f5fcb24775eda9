import Verif.Parse.Model

/-! # The byte stream: what the parser sees of a file -/

namespace Apop.Parse

/-- The file as a sequence of characters: byte `k`, except that the byte 255 looks like the end of the file. -/
def shownByte (file : List UInt8) (k : Nat) : Option UInt8 :=
  match file[k]? with
  | some c => if c = 255 then none else some c
  | none => none

/-- Where the reader is after `k` bytes: the rest of the buffer and of the file together are the file from `k` on. -/
structure At (bs : Nat) (file : List UInt8) (k : Nat) (s : Src) : Prop where
  len : s.buf.length = bs
  le : s.ptr ≤ bs
  ex : ∃ chunk : List UInt8, chunk ++ s.rest = file.drop k ∧ s.ptr + chunk.length ≤ bs ∧
    (∀ i : Nat, i < chunk.length → s.buf[s.ptr + i]? = some (chunk[i]?)) ∧
    (s.ptr + chunk.length = bs ∨ (s.rest = [] ∧ s.buf[s.ptr + chunk.length]? = some (some 255)))

theorem at_start (bs : Nat) (file : List UInt8) : At bs file 0 (Src.start bs file) :=
  ⟨by simp [Src.start], by simp [Src.start], [], by simp [Src.start], by simp [Src.start], by simp, Or.inl (by simp [Src.start])⟩

theorem fill_at {bs : Nat} (hb : 0 < bs) {file : List UInt8} {k : Nat} {s : Src} (h : At bs file k s) :
    At bs file k (s.fill bs) ∧ (s.fill bs).ptr < bs := by
  unfold Src.fill
  by_cases hp : s.ptr ≥ bs
  · rw [if_pos hp]
    simp only
    obtain ⟨chunk, h1, h2, h3, h4⟩ := h.ex
    have hc : chunk = [] := List.length_eq_zero_iff.1 (by omega)
    subst hc
    simp only [List.nil_append] at h1
    refine ⟨⟨?_, Nat.zero_le _, s.rest.take bs, ?_, ?_, ?_, ?_⟩, hb⟩
    · by_cases hl : (s.rest.take bs).length < bs
      · rw [if_pos hl]
        simp only [List.length_append, List.length_map, List.length_drop, List.length_singleton, h.len]
        omega
      · rw [if_neg hl]
        simp only [List.length_append, List.length_map, List.length_nil]
        have := List.length_take_le bs s.rest
        omega
    · rw [List.take_append_drop]; exact h1
    · have := List.length_take_le bs s.rest
      simp only; omega
    · intro i hi
      rw [List.getElem?_append_left (by simp only [List.length_map]; omega), List.getElem?_map]
      simp only [Nat.zero_add]
      rw [List.getElem?_eq_getElem hi]; rfl
    · by_cases hl : (s.rest.take bs).length < bs
      · right
        refine ⟨?_, ?_⟩
        · simp only [List.length_take] at hl
          exact List.drop_eq_nil_iff.2 (by omega)
        · rw [if_pos hl, List.getElem?_append_right (by simp), List.getElem?_append_left (by simp)]
          simp
      · left
        have := List.length_take_le bs s.rest
        simp only; omega
  · rw [if_neg hp]; exact ⟨h, by omega⟩

theorem next_at {bs : Nat} (hb : 0 < bs) {file : List UInt8} {k : Nat} {s : Src} (h : At bs file k s) :
    ∃ s', s.next bs = .ok (shownByte file k, s') ∧ (k < file.length → At bs file (k + 1) s') := by
  obtain ⟨hf, hp⟩ := fill_at hb h
  unfold Src.next
  generalize s.fill bs = t at hf hp
  obtain ⟨chunk, h1, h2, h3, h4⟩ := hf.ex
  cases chunk with
  | nil =>
    simp only [List.length_nil, Nat.add_zero] at h4 h2
    have h5 : t.rest = [] ∧ t.buf[t.ptr]? = some (some 255) := by
      rcases h4 with h | h
      · omega
      · exact h
    simp only [List.nil_append] at h1
    have hk : file[k]? = none := by
      rw [h5.1] at h1
      exact List.getElem?_eq_none (List.drop_eq_nil_iff.1 h1.symm)
    refine ⟨{ t with ptr := t.ptr + 1 }, ?_, ?_⟩
    · simp only
      rw [rd_eq_ok.2 h5.2]
      simp [shownByte, hk]
    · intro hk'
      rw [List.getElem?_eq_getElem hk'] at hk
      cases hk
  | cons c cs =>
    have hc : t.buf[t.ptr]? = some (some c) := by simpa using h3 0 (by simp)
    have hk : file[k]? = some c := by
      have : (file.drop k)[0]? = some c := by rw [← h1]; rfl
      simpa using this
    refine ⟨{ t with ptr := t.ptr + 1 }, ?_, fun _ => ⟨hf.len, by simp only; omega, cs, ?_, ?_, ?_, ?_⟩⟩
    · simp only
      rw [rd_eq_ok.2 hc]
      simp [shownByte, hk]
    · have : file.drop (k + 1) = (file.drop k).drop 1 := by rw [List.drop_drop]
      rw [this, ← h1]; rfl
    · simp only [List.length_cons] at h2; simp only; omega
    · intro i hi
      have := h3 (i + 1) (by simp; omega)
      simp only [List.getElem?_cons_succ] at this
      simp only
      rw [← this]; congr 1; omega
    · simp only [List.length_cons] at h4
      simp only
      rw [show t.ptr + 1 + cs.length = t.ptr + (cs.length + 1) by omega]
      exact h4

theorem nth_at {bs : Nat} (hb : 0 < bs) (file : List UInt8) : ∀ (j k : Nat) (s : Src), At bs file k s → k + j ≤ file.length →
    s.nth bs j = .ok (shownByte file (k + j))
  | 0, k, s, h, _ => by
    obtain ⟨s', a, -⟩ := next_at hb h
    rw [Src.nth, a]; rfl
  | j + 1, k, s, h, hj => by
    obtain ⟨s', a, b⟩ := next_at hb h
    rw [Src.nth, a]
    simp only [Res.bind_ok]
    rw [nth_at hb file j (k + 1) s' (b (by omega)) (by omega)]
    congr 2; omega

/-- For any buffer size, the first characters the parser sees are the bytes of the file, and then the end. -/
theorem fileSeq_eq {bs : Nat} (hb : 0 < bs) (file : List UInt8) (k : Nat) (hk : k ≤ file.length) :
    fileSeq bs file k = .ok (shownByte file k) := by
  have := nth_at hb file k 0 (Src.start bs file) (at_start bs file) (by omega)
  simpa [fileSeq] using this

/-! ### After the end -/

/-- The reader after `k` calls. -/
def Src.after (bs : Nat) : Nat → Src → Res Src
  | 0, s => .ok s
  | k + 1, s => do
    let (_, s) ← s.next bs
    Src.after bs k s

theorem nth_after (bs : Nat) : ∀ (k : Nat) (s : Src), s.nth bs k = (do let s ← s.after bs k; let (c, _) ← s.next bs; .ok c)
  | 0, s => rfl
  | k + 1, s => by
    rw [Src.nth, Src.after]
    cases s.next bs with
    | ub => rfl
    | ok y => exact nth_after bs k y.2

theorem after_add (bs : Nat) : ∀ (j k : Nat) (s t : Src), s.after bs j = .ok t → s.after bs (j + k) = t.after bs k
  | 0, k, s, t, h => by injection h with h; rw [h, Nat.zero_add]
  | j + 1, k, s, t, h => by
    rw [show j + 1 + k = (j + k) + 1 by omega, Src.after]
    rw [Src.after] at h
    obtain ⟨y, h1, h2⟩ := Res.bind_eq_ok.1 h
    rw [h1]
    exact after_add bs j k y.2 t h2

theorem after_within (bs : Nat) : ∀ (k : Nat) (s : Src), s.ptr + k ≤ bs → (∀ i, i < k → ∃ c, s.buf[s.ptr + i]? = some (some c)) →
    s.after bs k = .ok { s with ptr := s.ptr + k }
  | 0, s, _, _ => rfl
  | k + 1, s, h, hc => by
    obtain ⟨c, h0⟩ := hc 0 (by omega)
    have hf : s.fill bs = s := by rw [Src.fill, if_neg (by omega)]
    have hn : s.next bs = .ok (if c = 255 then none else some c, { s with ptr := s.ptr + 1 }) := by
      unfold Src.next
      simp only [hf]
      rw [rd_eq_ok.2 (by simpa using h0)]
      rfl
    rw [Src.after, hn]
    simp only [Res.bind_ok]
    rw [after_within bs k _ (by simp only; omega) (by
      intro i hi
      obtain ⟨d, hd⟩ := hc (i + 1) (by omega)
      exact ⟨d, by simp only; rw [← hd]; congr 1; omega⟩)]
    simp only [show s.ptr + 1 + k = s.ptr + (k + 1) by omega]

theorem next_at_ptr {bs : Nat} {s : Src} (h : s.ptr < bs) : (do let (c, _) ← s.next bs; .ok c : Res (Option UInt8)) =
    (do let c ← rd s.buf s.ptr; match c with | none => .ub | some c => .ok (if c = 255 then none else some c)) := by
  have hf : s.fill bs = s := by rw [Src.fill, if_neg (by omega)]
  unfold Src.next
  simp only [hf]
  cases hc : rd s.buf s.ptr with
  | ub => rfl
  | ok o => cases o <;> rfl

/-- A file shorter than the buffer: after the end has been read once, the next read is of memory never written. -/
theorem C32_after_end_ub (bs : Nat) (file : List UInt8) (h : file.length + 1 < bs) : fileSeq bs file (file.length + 1) = .ub := by
  have hbuf : file.take bs = file := List.take_of_length_le (by omega)
  -- the state at the first read
  have hfill : (Src.start bs file).fill bs = ⟨file.map some ++ ([some 255] ++ (List.replicate bs none).drop (file.length + 1)), 0, []⟩ := by
    unfold Src.fill Src.start
    rw [if_pos (by simp)]
    simp only [hbuf]
    have hd : file.drop bs = [] := List.drop_eq_nil_iff.2 (by omega)
    rw [if_pos (by omega), hd]
  have e : ∀ k, (Src.start bs file).after bs (k + 1) = ((Src.start bs file).fill bs).after bs (k + 1) := by
    intro k
    have : ((Src.start bs file).fill bs).fill bs = (Src.start bs file).fill bs := by
      rw [hfill, Src.fill, if_neg (by simp only; omega)]
    rw [Src.after, Src.after]
    have : (Src.start bs file).next bs = ((Src.start bs file).fill bs).next bs := by
      unfold Src.next
      simp only [this]
    rw [this]
  have hcells : ∀ i, i < file.length + 1 → ∃ c, (file.map some ++ ([some (255 : UInt8)] ++ (List.replicate bs none).drop (file.length + 1)))[i]? = some (some c) := by
    intro i hi
    by_cases hlt : i < file.length
    · exact ⟨file[i], by rw [List.getElem?_append_left (by simpa using hlt)]; simp [hlt]⟩
    · have : i = file.length := by omega
      subst this
      exact ⟨255, by rw [List.getElem?_append_right (by simp)]; simp⟩
  rw [fileSeq, nth_after, e, hfill, after_within bs _ _ (by simp only; omega) (by intro i hi; simp only [Nat.zero_add]; exact hcells i hi)]
  simp only [Res.bind_ok, Nat.zero_add]
  rw [next_at_ptr (by simp only; omega)]
  simp only
  have : rd (file.map some ++ ([some (255 : UInt8)] ++ (List.replicate bs none).drop (file.length + 1))) (file.length + 1) = .ok none := by
    rw [rd_eq_ok, List.getElem?_append_right (by simp), List.getElem?_append_right (by simp)]
    simp only [List.length_map, List.length_singleton, List.getElem?_drop, List.getElem?_replicate]
    rw [if_pos (by omega)]
  rw [this]
  rfl

/-- A longer file: after the end, bytes already read are read again. For a file of `bs + m` bytes, the character after the end
is byte `m + 1` of the file. -/
theorem C32_after_end_stale (bs m : Nat) (file : List UInt8) (hl : file.length = bs + m) (hm : m + 1 < bs)
    (c : UInt8) (hc : file[m + 1]? = some c) (hc2 : c ≠ 255) : fileSeq bs file (file.length + 1) = .ok (some c) := by
  have hb : 0 < bs := by omega
  -- after the first buffer
  have h1 : (Src.start bs file).fill bs = ⟨(file.take bs).map some, 0, file.drop bs⟩ := by
    unfold Src.fill Src.start
    rw [if_pos (by simp)]
    simp only
    rw [if_neg (by simp only [List.length_take]; omega), List.append_nil]
  have e : ∀ (s : Src) k, s.after bs (k + 1) = (s.fill bs).after bs (k + 1) := by
    intro s k
    have h2 : (s.fill bs).fill bs = s.fill bs := by
      unfold Src.fill
      by_cases hp : s.ptr ≥ bs
      · rw [if_pos hp]; simp only; rw [if_neg (by omega)]
      · rw [if_neg hp, if_neg hp]
    rw [Src.after, Src.after]
    have : s.next bs = (s.fill bs).next bs := by unfold Src.next; simp only [h2]
    rw [this]
  have h2 : (Src.start bs file).after bs bs = .ok ⟨(file.take bs).map some, bs, file.drop bs⟩ := by
    obtain ⟨b, rfl⟩ : ∃ b, bs = b + 1 := ⟨bs - 1, by omega⟩
    rw [e, h1, after_within _ _ _ (by simp) (by
      intro i hi
      simp only [Nat.zero_add, List.getElem?_map]
      exact ⟨(file.take (b + 1))[i]'(by simp; omega), by rw [List.getElem?_eq_getElem (by simp; omega)]; rfl⟩)]
    simp
  -- the second fill
  have h3 : Src.fill bs ⟨(file.take bs).map some, bs, file.drop bs⟩ =
      ⟨(file.drop bs).map some ++ ([some 255] ++ ((file.take bs).map some).drop (m + 1)), 0, []⟩ := by
    have hdl : (file.drop bs).length = m := by simp; omega
    unfold Src.fill
    rw [if_pos (Nat.le_refl _)]
    have ht : (file.drop bs).take bs = file.drop bs := List.take_of_length_le (by omega)
    simp only [ht, hdl]
    have hd : (file.drop bs).drop bs = [] := List.drop_eq_nil_iff.2 (by omega)
    rw [if_pos (by omega), hd]
  have hcells : ∀ i, i < m + 1 → ∃ c, ((file.drop bs).map some ++ ([some (255 : UInt8)] ++ ((file.take bs).map some).drop (m + 1)))[i]? = some (some c) := by
    intro i hi
    have hdl : (file.drop bs).length = m := by simp; omega
    by_cases hlt : i < m
    · exact ⟨(file.drop bs)[i]'(by omega), by
        rw [List.getElem?_append_left (by rw [List.length_map]; omega), List.getElem?_map, List.getElem?_eq_getElem (by omega)]; rfl⟩
    · have : i = m := by omega
      subst this
      exact ⟨255, by rw [List.getElem?_append_right (by rw [List.length_map]; omega), List.length_map, hdl]; simp⟩
  rw [fileSeq, nth_after, hl, show bs + m + 1 = bs + (m + 1) by omega, after_add _ _ _ _ _ h2, e, h3,
    after_within _ _ _ (by simp only; omega) (by intro i hi; simp only [Nat.zero_add]; exact hcells i hi)]
  simp only [Res.bind_ok, Nat.zero_add]
  rw [next_at_ptr (by simp only; omega)]
  simp only
  have hdl : (file.drop bs).length = m := by simp; omega
  have : rd ((file.drop bs).map some ++ ([some (255 : UInt8)] ++ ((file.take bs).map some).drop (m + 1))) (m + 1) = .ok (some c) := by
    rw [rd_eq_ok, List.getElem?_append_right (by rw [List.length_map]; omega), List.length_map, hdl,
      List.getElem?_append_right (by simp)]
    rw [List.getElem?_drop, List.getElem?_map]
    simp only [List.length_singleton]
    rw [show m + 1 + (m + 1 - m - 1) = m + 1 by omega, List.getElem?_take_of_lt (by omega), hc]
    rfl
  rw [this]
  simp [hc2]

end Apop.Parse
