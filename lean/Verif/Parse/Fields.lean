import Verif.Parse.Line

/-! # Delimited lines: memory safety (C31) and the fields read (C30) -/

namespace Apop.Parse

/-! ## From the file to the list machine -/

theorem takeWhile_getElem? (p : UInt8 → Bool) : ∀ (l : List UInt8) (k : Nat), k ≤ (l.takeWhile p).length →
    (l.takeWhile p)[k]? = (match l[k]? with | some c => if p c then some c else none | none => none)
  | [], k, _ => by simp
  | c :: l, 0, _ => by
    by_cases hc : p c = true
    · simp [hc]
    · simp [hc]
  | c :: l, k + 1, hk => by
    by_cases hc : p c = true
    · rw [List.takeWhile_cons_of_pos hc] at hk ⊢
      simp only [List.length_cons] at hk
      have := takeWhile_getElem? p l k (by omega)
      simpa using this
    · rw [List.takeWhile_cons_of_neg hc] at hk
      simp at hk

/-- What is read of a file: the bytes before the first byte 255, then the end. -/
theorem shows_file {bs : Nat} (hb : 0 < bs) (file : List UInt8) : Shows (fileSeq bs file) (file.takeWhile (· != 255)) := by
  intro k hk
  have hle : (file.takeWhile (· != 255)).length ≤ file.length := by
    have := List.takeWhile_prefix (l := file) (· != 255)
    exact this.length_le
  rw [fileSeq_eq hb file k (by omega), takeWhile_getElem? _ _ _ hk, shownByte]
  cases file[k]? with
  | none => rfl
  | some c => by_cases hc : c = 255 <;> simp [hc]

theorem act_end_cur (a : A) (ty : Ty) (c : UInt8) (h : ty = .nl ∨ ty = .eof) : (a.act ty c).cur = none := by
  unfold A.act A.put
  rcases h with rfl | rfl <;> cases hc : a.cur <;> simp [hc] <;> split <;> simp [hc]

theorem absLine_cur (delims : CStr) : ∀ (r : List UInt8) (md : Mode) (a : A) (pos : Nat), (absLine delims md r a pos).1.cur = none
  | [], .comment, a, pos => by rw [absLine]; exact act_end_cur a _ _ (Or.inl rfl)
  | [], .escaped, a, pos => by rw [absLine]; exact act_end_cur a _ _ (Or.inr rfl)
  | [], .plain, a, pos => by rw [absLine]; exact act_end_cur a _ _ (Or.inr rfl)
  | c :: r, .comment, a, pos => by
    rw [absLine]
    split
    · exact act_end_cur a _ _ (Or.inl rfl)
    · exact absLine_cur delims r _ _ _
  | c :: r, .escaped, a, pos => by rw [absLine]; exact absLine_cur delims r _ _ _
  | c :: r, .plain, a, pos => by
    rw [absLine]
    split
    · exact absLine_cur delims r _ _ _
    · split
      · exact absLine_cur delims r _ _ _
      · simp only
        split
        · rename_i h; exact act_end_cur _ _ _ (Or.inl h)
        · exact absLine_cur delims r _ _ _

/-- The string in a block is what is before the first NUL. -/
theorem cstrOf_holds : ∀ (d : List UInt8) (l : List (Option UInt8)), l.take (d.length + 1) = d.map some ++ [some 0] →
    cstrOf l = .ok (d.takeWhile (· != 0))
  | [], l, h => by
    cases l with
    | nil => simp at h
    | cons x l => simp at h; subst h; rfl
  | c :: d, l, h => by
    cases l with
    | nil => simp at h
    | cons x l =>
      simp at h
      obtain ⟨rfl, h⟩ := h
      rw [cstrOf]
      by_cases hc : c = 0
      · simp [hc]
      · rw [if_neg hc, cstrOf_holds d l h]
        simp [hc]

theorem takeStrs_eq : ∀ (fs : List (List UInt8)) (fn : List Buf), (∀ (k : Nat) (d : List UInt8), fs[k]? = some d → ∃ b, fn[k]? = some b ∧ Holds b d) →
    takeStrs fs.length fn = .ok (fs.map (·.takeWhile (· != 0)))
  | [], fn, _ => by cases fn <;> rfl
  | f :: fs, fn, h => by
    obtain ⟨b, h1, h2⟩ := h 0 f rfl
    cases fn with
    | nil => simp at h1
    | cons b' fn =>
      simp at h1
      subst h1
      obtain ⟨l, rfl, h3⟩ := h2
      simp only [List.length_cons, takeStrs, bufStr]
      rw [cstrOf_holds f l h3, Res.bind_ok, takeStrs_eq fs fn (fun k d hk => by simpa using h (k + 1) d (by simpa using hk))]
      rfl

/-- The line read from position `pos` as lists: fields, end of file, position after it. -/
def lineOf (delims : CStr) (bytes : List UInt8) (pos : Nat) : A × Bool × Nat := absLine delims .plain (bytes.drop pos) {} pos

/-- **The parser reads what the list machine reads.** -/
theorem parse_eq {seq : Seq} {bytes : List UInt8} (hs : Shows seq bytes) {delims : CStr} (hd : (255 : UInt8) ∉ delims) (fuel pos : Nat)
    (hp : pos ≤ bytes.length) (hf : bytes.length < pos + fuel) (fn : List Buf) :
    ∃ fn', parseLine seq delims fuel pos fn =
        .done ⟨(lineOf delims bytes pos).1.fields.length, (lineOf delims bytes pos).2.1, fn', (lineOf delims bytes pos).2.2⟩ ∧
      fn'.length = max fn.length (lineOf delims bytes pos).1.fields.length ∧
      takeStrs (lineOf delims bytes pos).1.fields.length fn' = .ok ((lineOf delims bytes pos).1.fields.map (·.takeWhile (· != 0))) := by
  have hsim : Sim fn.length { fn := fn } {} := by
    refine ⟨rfl, rfl, rfl, rfl, by simp, ?_, fun _ => rfl, by simp⟩
    intro k d hk
    simp at hk
  obtain ⟨s', e1, e2⟩ := loop_sim hs hd fuel pos _ _ hp (by rw [List.length_drop]; omega) hsim
  have hcur := absLine_cur delims (bytes.drop pos) .plain {} pos
  have hct := e2.ct
  simp only [hcur, Option.isSome_none, Bool.false_eq_true, if_false, Nat.add_zero] at hct
  refine ⟨s'.fn, ?_, ?_, ?_⟩
  · rw [parseLine, e1]
    simp only [Run.bind_done, hct]
    rfl
  · rw [e2.mem, hct]; rfl
  · exact takeStrs_eq _ _ e2.held

/-! ## C31: every write is inside the field's block -/

/-- **C31 (delimited lines).** Whatever the bytes of the file, the buffer size, the delimiters (but 255, which is not ASCII),
the place in the file and what earlier lines have left in the fields, reading a line writes and reads only inside the
blocks, comes to an end, and leaves every field of the line a terminated string. -/
theorem C31_line_in_bounds (bs : Nat) (hb : 0 < bs) (file : List UInt8) (delims : CStr) (hd : (255 : UInt8) ∉ delims) (pos : Nat)
    (hp : pos ≤ (file.takeWhile (· != 255)).length) (fn : List Buf) :
    ∃ l strs, parseLine (fileSeq bs file) delims (file.length + 1) pos fn = .done l ∧ takeStrs l.ct l.fn = .ok strs := by
  have hle : (file.takeWhile (· != 255)).length ≤ file.length := (List.takeWhile_prefix (l := file) (· != 255)).length_le
  obtain ⟨fn', e1, _, e3⟩ := parse_eq (shows_file hb file) hd (file.length + 1) pos hp (by omega) fn
  exact ⟨_, _, e1, e3⟩

/-! ## C30: the fields -/

/-- What a field of a line is written with: a plain character, white space, a character after a backslash, text in quotes. -/
inductive Piece where
  | reg (c : UInt8)
  | sp (c : UInt8)
  | esc (c : UInt8)
  | quo (s : List UInt8)
  deriving DecidableEq

/-- Text as written between quotes: a backslash before each quote and backslash. -/
def escText (s : List UInt8) : List UInt8 := s.flatMap (fun c => if c = 34 ∨ c = 92 then [92, c] else [c])

/-- A piece as written. -/
def Piece.write : Piece → List UInt8
  | reg c => [c]
  | sp c => [c]
  | esc c => [92, c]
  | quo s => [34] ++ escText s ++ [34]

/-- The characters it stands for, and whether they are white space that may be trimmed. -/
def Piece.marks : Piece → List (UInt8 × Bool)
  | reg c => [(c, false)]
  | sp c => [(c, true)]
  | esc c => [(c, false)]
  | quo s => s.map (·, false)

/-- The delimiters are no quote, backslash, newline or end mark. -/
def GoodDelims (delims : CStr) : Prop := (34 : UInt8) ∉ delims ∧ (92 : UInt8) ∉ delims ∧ (10 : UInt8) ∉ delims ∧ (255 : UInt8) ∉ delims

/-- A plain character is not a delimiter, newline, quote, backslash, hash, NUL or white; white space is a blank, tab or carriage
return that is no delimiter; the others are not 255. -/
def Piece.Ok (delims : CStr) : Piece → Prop
  | reg c => c ∉ delims ∧ c ∉ [(0 : UInt8), 9, 10, 13, 32, 34, 35, 92, 255]
  | sp c => c ∉ delims ∧ c ∈ [(9 : UInt8), 13, 32]
  | esc c => c ≠ 255
  | quo s => (255 : UInt8) ∉ s

/-- White space at both ends cut off. -/
def trim (ms : List (UInt8 × Bool)) : List UInt8 := ((ms.dropWhile (·.2)).reverse.dropWhile (·.2)).reverse.map (·.1)

/-- The field written as these pieces. -/
def fieldOf (ps : List Piece) : List UInt8 := trim (ps.flatMap Piece.marks)

/-- A line of fields separated by `d`. -/
def writeFields (d : UInt8) : List (List Piece) → List UInt8
  | [] => []
  | [f] => f.flatMap Piece.write
  | f :: g :: fs => f.flatMap Piece.write ++ d :: writeFields d (g :: fs)

/-! ### The list machine on pieces -/

/-- The field being read, after a character. -/
def pushMark (cur : Option (List UInt8 × Nat)) (m : UInt8 × Bool) : Option (List UInt8 × Nat) :=
  match cur with
  | none => if m.2 then none else some ([m.1], 1)
  | some (b, n) => some (b ++ [m.1], if m.2 then n else b.length + 1)

/-- The field when it ends. -/
def closeCur : Option (List UInt8 × Nat) → List UInt8
  | none => []
  | some (b, n) => b.take n

/-- The machine outside quotes, not after a white delimiter. -/
def mk (fs : List (List UInt8)) (cur : Option (List UInt8 × Nat)) (q : Bool := false) : A := ⟨fs, cur, q, false⟩

theorem act_reg (fs cur q c) : (mk fs cur q).act .reg c = mk fs (pushMark cur (c, false)) q := by
  cases cur <;> simp [mk, A.act, A.put, pushMark]

theorem act_ws (fs cur q c) : (mk fs cur q).act .ws c = mk fs (pushMark cur (c, true)) q := by
  cases cur <;> simp [mk, A.act, A.put, pushMark]

theorem act_quote (fs cur q c) : (mk fs cur q).act .quote c = mk fs cur q := by
  cases cur <;> simp [mk, A.act, A.put]

theorem act_delim (fs cur q c) : (mk fs cur q).act .delim c = mk (fs ++ [closeCur cur]) none q := by
  cases cur <;> simp [mk, A.act, A.put, closeCur]

theorem act_end (fs cur q c) (ty : Ty) (h : ty = .nl ∨ ty = .eof) : (mk fs cur q).act ty c =
    mk (if fs = [] ∧ cur = none then [] else fs ++ [closeCur cur]) none q := by
  rcases h with rfl | rfl <;> cases cur <;> by_cases hf : fs = [] <;> simp [mk, A.act, A.put, closeCur, hf]

section
variable {delims : CStr} (hg : GoodDelims delims)
include hg

theorem cl_quote : classify delims (some 34) = .quote := by
  simp [classify, isDelim, hg.1]

theorem cl_bslash : classify delims (some 92) = .bslash := by
  simp [classify, isDelim, hg.2.1]

theorem cl_nl : classify delims (some 10) = .nl := by
  simp [classify, isDelim, hg.2.2.1]

omit hg in
theorem cl_reg {c : UInt8} (h : (Piece.reg c).Ok delims) : classify delims (some c) = .reg := by
  simp only [Piece.Ok, List.mem_cons, List.not_mem_nil, or_false, not_or] at h
  obtain ⟨h0, h1, h2, h3, h4, h5, h6, h7, h8, h9⟩ := h
  simp [classify, isDelim, h0, h1, h2, h3, h4, h5, h6, h7, h8]

omit hg in
theorem cl_sp {c : UInt8} (h : (Piece.sp c).Ok delims) : classify delims (some c) = .ws := by
  simp only [Piece.Ok, List.mem_cons, List.not_mem_nil, or_false] at h
  obtain ⟨h0, h1⟩ := h
  have h00 : c ≠ 0 := by rcases h1 with rfl | rfl | rfl <;> decide
  have : (c = 32 ∨ c = 13 ∨ c = 9 ∨ c = 0) := by rcases h1 with h | h | h <;> simp [h]
  simp only [classify]
  rw [if_pos this]
  simp [isDelim, h0, h00]

/-- In quotes everything that is no quote, backslash is plain. -/
theorem quoted_run : ∀ (s : List UInt8) (fs : List (List UInt8)) (cur : Option (List UInt8 × Nat)) (rest : List UInt8) (pos : Nat),
    absLine delims .plain (escText s ++ rest) (mk fs cur true) pos =
      absLine delims .plain rest (mk fs ((s.map (·, false)).foldl pushMark cur) true) (pos + (escText s).length)
  | [], fs, cur, rest, pos => by simp [escText]
  | c :: s, fs, cur, rest, pos => by
    have hesc : escText (c :: s) = (if c = 34 ∨ c = 92 then [92, c] else [c]) ++ escText s := by simp [escText]
    rw [hesc]
    by_cases hc : c = 34 ∨ c = 92
    · rw [if_pos hc]
      simp only [List.cons_append, List.nil_append]
      rw [absLine, cl_bslash hg, if_neg (by simp), if_pos rfl, absLine, act_reg, quoted_run s]
      simp only [List.map_cons, List.foldl_cons, List.length_cons]
      congr 1
      omega
    · rw [if_neg hc]
      simp only [List.cons_append, List.nil_append]
      rw [absLine, if_neg (by simp [mk])]
      simp only [not_or] at hc
      have hnb : classify delims (some c) ≠ .bslash := by
        simp only [classify]
        repeat' split
        all_goals simp_all
      have hnq : classify delims (some c) ≠ .quote := by
        simp only [classify]
        repeat' split
        all_goals simp_all
      have hne : classify delims (some c) ≠ .eof := by
        simp only [classify]
        repeat' split
        all_goals simp
      rw [if_neg hnb]
      have hrq : requote (mk fs cur true).inqq (classify delims (some c)) = .reg := by simp [requote, mk, hnq, hne]
      have hsq : switchq (mk fs cur true).inqq (classify delims (some c)) = true := by simp [switchq, mk, hnq]
      simp only [hrq, hsq]
      have : ({ mk fs cur true with inqq := true } : A) = mk fs cur true := rfl
      rw [this, act_reg, if_neg (by simp), quoted_run s]
      simp [Nat.add_assoc, Nat.add_comm]

theorem piece_run (p : Piece) (hp : p.Ok delims) (fs : List (List UInt8)) (cur : Option (List UInt8 × Nat)) (rest : List UInt8) (pos : Nat) :
    absLine delims .plain (p.write ++ rest) (mk fs cur) pos = absLine delims .plain rest (mk fs (p.marks.foldl pushMark cur)) (pos + p.write.length) := by
  cases p with
  | reg c =>
    simp only [Piece.write, Piece.marks, List.cons_append, List.nil_append, List.foldl_cons, List.foldl_nil, List.length_singleton]
    rw [absLine, cl_reg hp, if_neg (by simp), if_neg (by simp)]
    have : ({ mk fs cur with inqq := switchq (mk fs cur).inqq .reg } : A) = mk fs cur := rfl
    simp only [this]
    have h2 : requote (mk fs cur).inqq .reg = .reg := rfl
    rw [h2, act_reg, if_neg (by simp)]
  | sp c =>
    simp only [Piece.write, Piece.marks, List.cons_append, List.nil_append, List.foldl_cons, List.foldl_nil, List.length_singleton]
    rw [absLine, cl_sp hp, if_neg (by simp), if_neg (by simp)]
    have : ({ mk fs cur with inqq := switchq (mk fs cur).inqq .ws } : A) = mk fs cur := rfl
    simp only [this]
    have h2 : requote (mk fs cur).inqq .ws = .ws := rfl
    rw [h2, act_ws, if_neg (by simp)]
  | esc c =>
    simp only [Piece.write, Piece.marks, List.cons_append, List.nil_append, List.foldl_cons, List.foldl_nil]
    rw [absLine, cl_bslash hg, if_neg (by simp), if_pos rfl, absLine, act_reg]
    rfl
  | quo s =>
    simp only [Piece.write, Piece.marks, List.cons_append, List.nil_append, List.append_assoc]
    rw [absLine, cl_quote hg, if_neg (by simp), if_neg (by simp)]
    have h1 : ({ mk fs cur with inqq := switchq (mk fs cur).inqq .quote } : A) = mk fs cur true := rfl
    have h2 : requote (mk fs cur).inqq .quote = .quote := rfl
    simp only [h1, h2]
    rw [act_quote, if_neg (by simp), quoted_run hg, absLine, cl_quote hg, if_neg (by simp), if_neg (by simp)]
    generalize (s.map (·, false)).foldl pushMark cur = cur'
    have h3 : ({ mk fs cur' true with inqq := switchq (mk fs cur' true).inqq .quote } : A) = mk fs cur' := rfl
    have h4 : requote (mk fs cur' true).inqq .quote = .quote := rfl
    simp only [h3, h4]
    rw [act_quote, if_neg (by simp)]
    simp [Nat.add_assoc, Nat.add_comm, Nat.add_left_comm]

theorem pieces_run : ∀ (ps : List Piece), (∀ p ∈ ps, p.Ok delims) → ∀ (fs : List (List UInt8)) (cur : Option (List UInt8 × Nat)) (rest : List UInt8) (pos : Nat),
    absLine delims .plain (ps.flatMap Piece.write ++ rest) (mk fs cur) pos =
      absLine delims .plain rest (mk fs ((ps.flatMap Piece.marks).foldl pushMark cur)) (pos + (ps.flatMap Piece.write).length)
  | [], _, fs, cur, rest, pos => by simp
  | p :: ps, h, fs, cur, rest, pos => by
    simp only [List.flatMap_cons, List.append_assoc]
    rw [piece_run hg p (h p (by simp)), pieces_run ps (fun q hq => h q (by simp [hq]))]
    simp [Nat.add_assoc]

end

/-! ### Trimming -/

/-- The field being read stands for these characters. -/
def Rep (cur : Option (List UInt8 × Nat)) (ms : List (UInt8 × Bool)) : Prop :=
  match cur with
  | none => ms.dropWhile (·.2) = []
  | some (b, n) => ms.dropWhile (·.2) ≠ [] ∧ b = (ms.dropWhile (·.2)).map (·.1) ∧
      n = ((ms.dropWhile (·.2)).reverse.dropWhile (·.2)).length

theorem dropWhile_append_single (ms : List (UInt8 × Bool)) (x : UInt8 × Bool) :
    (ms ++ [x]).dropWhile (·.2) = if ms.dropWhile (·.2) = [] then [x].dropWhile (·.2) else ms.dropWhile (·.2) ++ [x] := by
  induction ms with
  | nil => simp
  | cons y ms ih =>
    by_cases hy : y.2 = true
    · simp [hy, ih]
    · simp [hy]

theorem rep_push {cur ms} (h : Rep cur ms) (x : UInt8 × Bool) : Rep (pushMark cur x) (ms ++ [x]) := by
  obtain ⟨c, w⟩ := x
  cases cur with
  | none =>
    simp only [Rep] at h
    cases w with
    | true => simp [pushMark, Rep, dropWhile_append_single, h]
    | false => simp [pushMark, Rep, dropWhile_append_single, h]
  | some y =>
    obtain ⟨b, n⟩ := y
    simp only [Rep] at h
    obtain ⟨h1, h2, h3⟩ := h
    simp only [pushMark, Rep]
    rw [dropWhile_append_single, if_neg h1]
    refine ⟨by simp, by simp [h2], ?_⟩
    cases w with
    | true => simp [h3]
    | false => simp [h2]

theorem rep_foldl : ∀ (ms : List (UInt8 × Bool)) (cur) (pre : List (UInt8 × Bool)), Rep cur pre → Rep (ms.foldl pushMark cur) (pre ++ ms)
  | [], cur, pre, h => by simpa using h
  | x :: ms, cur, pre, h => by
    have := rep_foldl ms (pushMark cur x) (pre ++ [x]) (rep_push h x)
    simpa using this

theorem rep_close {cur ms} (h : Rep cur ms) : closeCur cur = trim ms := by
  cases cur with
  | none => simp only [Rep] at h; simp [closeCur, trim, h]
  | some y =>
    obtain ⟨b, n⟩ := y
    simp only [Rep] at h
    obtain ⟨_, h2, h3⟩ := h
    subst h2 h3
    simp only [closeCur, trim]
    generalize ms.dropWhile (·.2) = l
    rw [← List.map_take]
    congr 1
    have := List.dropWhile_suffix (l := l.reverse) (·.2)
    obtain ⟨t, ht⟩ := this
    have hl : l = (l.reverse.dropWhile (·.2)).reverse ++ t.reverse := by
      rw [← List.reverse_append, ht, List.reverse_reverse]
    generalize l.reverse.dropWhile (·.2) = u at *
    subst hl
    rw [List.take_append_of_le_length (by simp), List.take_of_length_le (by simp)]

theorem rep_none {cur ms} (h : Rep cur ms) : cur = none ↔ ms.dropWhile (·.2) = [] := by
  cases cur with
  | none => simpa [Rep] using h
  | some y => obtain ⟨b, n⟩ := y; simp only [Rep] at h; simp [h.1]

/-- A field of white space and empty quotes only. -/
def Blank (ps : List Piece) : Prop := ∀ m ∈ ps.flatMap Piece.marks, m.2 = true

theorem blank_iff (ps : List Piece) : Blank ps ↔ (ps.flatMap Piece.marks).dropWhile (·.2) = [] := by
  unfold Blank
  generalize ps.flatMap Piece.marks = l
  induction l with
  | nil => simp
  | cons x l ih =>
    rw [List.forall_mem_cons, List.dropWhile_cons]
    by_cases hx : x.2 = true
    · rw [if_pos hx, ← ih]; simp [hx]
    · simp [hx]

/-- How the line ends. -/
inductive LineEnd where
  | newline | comment (s : List UInt8)

/-- The end as written: a newline, or a hash, anything but a newline, and a newline. -/
def LineEnd.write : LineEnd → List UInt8
  | .newline => [10]
  | .comment s => 35 :: s ++ [10]

/-- No newline in the comment. -/
def LineEnd.Ok : LineEnd → Prop
  | .newline => True
  | .comment s => (10 : UInt8) ∉ s

theorem comment_run (delims : CStr) (a : A) (rest : List UInt8) : ∀ (s : List UInt8) (pos : Nat), (10 : UInt8) ∉ s →
    absLine delims .comment (s ++ 10 :: rest) a pos = (a.act .nl 35, false, pos + s.length + 1)
  | [], pos, _ => by simp [absLine]
  | c :: s, pos, h => by
    have hc : c ≠ 10 := by intro hc; simp [hc] at h
    simp only [List.cons_append]
    rw [absLine, if_neg hc, comment_run delims a rest s _ (by simp at h; exact h.2)]
    simp [Nat.add_assoc, Nat.add_comm, Nat.add_left_comm]

theorem end_run {delims : CStr} (hg : GoodDelims delims) (hh : (35 : UInt8) ∉ delims) (e : LineEnd) (he : e.Ok) (rest : List UInt8) (fs cur pos) :
    absLine delims .plain (e.write ++ rest) (mk fs cur) pos = ((mk fs cur).act .nl 10, false, pos + e.write.length) := by
  cases e with
  | newline =>
    simp only [LineEnd.write, List.cons_append, List.nil_append]
    rw [absLine, cl_nl hg, if_neg (by simp), if_neg (by simp)]
    have h1 : ({ mk fs cur with inqq := switchq (mk fs cur).inqq .nl } : A) = mk fs cur := rfl
    have h2 : requote (mk fs cur).inqq .nl = .nl := rfl
    simp only [h1, h2, if_true]
    rfl
  | comment s =>
    simp only [LineEnd.write, List.cons_append, List.append_assoc, List.nil_append]
    have hc : classify delims (some 35) = .hash := by simp [classify, isDelim, hh]
    rw [absLine, hc, if_pos ⟨rfl, rfl⟩, comment_run delims _ _ s _ he, act_end _ _ _ _ _ (Or.inl rfl), act_end _ _ _ _ _ (Or.inl rfl)]
    simp [Nat.add_assoc, Nat.add_comm, Nat.add_left_comm]

theorem fields_run {delims : CStr} (hg : GoodDelims delims) (hh : (35 : UInt8) ∉ delims) {d : UInt8} (hd : classify delims (some d) = .delim)
    (e : LineEnd) (he : e.Ok) (rest : List UInt8) :
    ∀ (fss : List (List Piece)), (∀ f ∈ fss, ∀ p ∈ f, p.Ok delims) → fss ≠ [] → ∀ (done : List (List UInt8)) (pos : Nat),
      ¬(done = [] ∧ ∃ f, fss = [f] ∧ Blank f) →
      absLine delims .plain (writeFields d fss ++ (e.write ++ rest)) (mk done none) pos =
        (mk (done ++ fss.map fieldOf) none, false, pos + (writeFields d fss).length + e.write.length)
  | [], _, h, _, _, _ => absurd rfl h
  | [f], hok, _, done, pos, hb => by
    simp only [writeFields]
    rw [pieces_run hg f (hok f (by simp)), end_run hg hh e he, act_end _ _ _ _ _ (Or.inl rfl)]
    have hrep := rep_foldl (f.flatMap Piece.marks) none [] (by simp [Rep])
    simp only [List.nil_append] at hrep
    rw [rep_close hrep, if_neg]
    · rfl
    · rintro ⟨h1, h2⟩
      exact hb ⟨h1, f, rfl, (blank_iff f).2 ((rep_none hrep).1 h2)⟩
  | f :: g :: fs, hok, _, done, pos, hb => by
    simp only [writeFields, List.append_assoc, List.cons_append]
    rw [pieces_run hg f (hok f (by simp)), absLine, hd, if_neg (by simp), if_neg (by simp)]
    have hrep := rep_foldl (f.flatMap Piece.marks) none [] (by simp [Rep])
    simp only [List.nil_append] at hrep
    generalize (f.flatMap Piece.marks).foldl pushMark none = cur at hrep ⊢
    have h1 : ({ mk done cur with inqq := switchq (mk done cur).inqq .delim } : A) = mk done cur := rfl
    have h2 : requote (mk done cur).inqq .delim = .delim := rfl
    simp only [h1, h2]
    rw [act_delim, if_neg (by simp), rep_close hrep,
      fields_run hg hh hd e he rest (g :: fs) (fun x hx => hok x (by simp [hx])) (by simp) _ _ (by simp)]
    simp [fieldOf, Nat.add_assoc, Nat.add_comm, Nat.add_left_comm]

/-- The line at the place where the rest of the file starts with it. -/
theorem lineOf_at {delims : CStr} (hg : GoodDelims delims) (hh : (35 : UInt8) ∉ delims) {d : UInt8} (hd : classify delims (some d) = .delim)
    (e : LineEnd) (he : e.Ok) (fss : List (List Piece)) (hok : ∀ f ∈ fss, ∀ p ∈ f, p.Ok delims) (hne : fss ≠ [])
    (hb : ¬∃ f, fss = [f] ∧ Blank f) (bytes : List UInt8) (pos : Nat) (rest : List UInt8)
    (hdrop : bytes.drop pos = writeFields d fss ++ (e.write ++ rest)) :
    lineOf delims bytes pos = (mk (fss.map fieldOf) none, false, pos + (writeFields d fss).length + e.write.length) := by
  rw [lineOf, hdrop]
  have := fields_run hg hh hd e he rest fss hok hne [] pos (by rintro ⟨_, h⟩; exact hb h)
  simpa [mk] using this

theorem takeWhile_append_all {p : UInt8 → Bool} : ∀ (l r : List UInt8), (∀ c ∈ l, p c = true) → (l ++ r).takeWhile p = l ++ r.takeWhile p
  | [], r, _ => rfl
  | c :: l, r, h => by
    rw [List.cons_append, List.takeWhile_cons_of_pos (h c (by simp)), takeWhile_append_all l r (fun x hx => h x (by simp [hx]))]
    rfl

theorem not255_piece {delims : CStr} (p : Piece) (h : p.Ok delims) : (255 : UInt8) ∉ p.write := by
  cases p with
  | reg c => simp [Piece.Ok, Piece.write] at *; intro hc; simp [← hc] at h
  | sp c => simp [Piece.Ok, Piece.write] at *; intro hc; simp [← hc] at h
  | esc c => simp [Piece.Ok, Piece.write] at *; exact fun hc => h hc.symm
  | quo s =>
    simp only [Piece.Ok, Piece.write, escText, List.mem_append, List.mem_cons, List.not_mem_nil, or_false, List.mem_flatMap, not_or] at *
    refine ⟨⟨by decide, ?_⟩, by decide⟩
    rintro ⟨c, hc, hm⟩
    split at hm
    · simp at hm; rw [hm] at h; exact h hc
    · simp at hm; rw [hm] at h; exact h hc

theorem not255_fields {delims : CStr} {d : UInt8} (hd : d ≠ 255) : ∀ (fss : List (List Piece)), (∀ f ∈ fss, ∀ p ∈ f, p.Ok delims) →
    (255 : UInt8) ∉ writeFields d fss
  | [], _ => by simp [writeFields]
  | [f], h => by
    simp only [writeFields, List.mem_flatMap, not_exists, not_and]
    exact fun p hp => not255_piece p (h f (by simp) p hp)
  | f :: g :: fs, h => by
    simp only [writeFields, List.mem_append, List.mem_cons, List.mem_flatMap, not_or, not_exists, not_and]
    exact ⟨fun p hp => not255_piece p (h f (by simp) p hp), fun hc => hd hc.symm, not255_fields hd (g :: fs) (fun x hx => h x (by simp [hx]))⟩

/-- **C30: what is read of a line.** In any file, for any buffer size, a line of fields separated by a delimiter that is not
white space, where each field is a mix of plain characters, white space, escaped characters and quoted text, and ended by a newline or
a comment, is read as these fields: as many as were written, each with the white space at its ends cut off and quotes and
escapes removed (up to the first NUL). Only a line of one blank field is read as no fields. -/
theorem C30_line_fields (bs : Nat) (hbs : 0 < bs) (delims : CStr) (hg : GoodDelims delims) (hh : (35 : UInt8) ∉ delims)
    (d : UInt8) (hd : d ∈ delims) (hd2 : d ∉ [(0 : UInt8), 9, 13, 32]) (e : LineEnd) (he : e.Ok) (he2 : (255 : UInt8) ∉ e.write)
    (fss : List (List Piece)) (hok : ∀ f ∈ fss, ∀ p ∈ f, p.Ok delims) (hne : fss ≠ []) (hb : ¬∃ f, fss = [f] ∧ Blank f)
    (pre rest : List UInt8) (hpre : (255 : UInt8) ∉ pre) (fn : List Buf) :
    ∃ l, parseLine (fileSeq bs (pre ++ (writeFields d fss ++ (e.write ++ rest)))) delims
          ((pre ++ (writeFields d fss ++ (e.write ++ rest))).length + 1) pre.length fn = .done l ∧
      l.ct = fss.length ∧ l.eof = false ∧ l.pos = pre.length + (writeFields d fss).length + e.write.length ∧
      takeStrs l.ct l.fn = .ok (fss.map (fun f => (fieldOf f).takeWhile (· != 0))) := by
  have hcd : classify delims (some d) = .delim := by
    simp only [List.mem_cons, List.not_mem_nil, or_false, not_or] at hd2
    simp [classify, isDelim, hd, hd2]
  have hd255 : d ≠ 255 := fun h => hg.2.2.2 (h ▸ hd)
  have hall : ∀ c ∈ pre ++ (writeFields d fss ++ e.write), (c != 255) = true := by
    intro c hc
    have : (255 : UInt8) ∉ pre ++ (writeFields d fss ++ e.write) := by
      simp only [List.mem_append, not_or]
      exact ⟨hpre, not255_fields hd255 fss hok, he2⟩
    simp only [bne_iff_ne, ne_eq]
    rintro rfl
    exact this hc
  have htw : (pre ++ (writeFields d fss ++ (e.write ++ rest))).takeWhile (· != 255) =
      pre ++ (writeFields d fss ++ (e.write ++ rest.takeWhile (· != 255))) := by
    have := takeWhile_append_all (p := (· != 255)) (pre ++ (writeFields d fss ++ e.write)) rest hall
    simpa using this
  have hs := shows_file hbs (pre ++ (writeFields d fss ++ (e.write ++ rest)))
  rw [htw] at hs
  have hlt : (rest.takeWhile (· != 255)).length ≤ rest.length := (List.takeWhile_prefix (l := rest) (· != 255)).length_le
  obtain ⟨fn', h1, _, h3⟩ := parse_eq hs hg.2.2.2 ((pre ++ (writeFields d fss ++ (e.write ++ rest))).length + 1) pre.length
    (by simp) (by simp only [List.length_append]; omega) fn
  rw [lineOf_at hg hh hcd e he fss hok hne hb _ pre.length (rest.takeWhile (· != 255)) (by simp)] at h1 h3
  refine ⟨_, h1, by simp [mk], rfl, rfl, ?_⟩
  simp only [mk, List.length_map] at h3 ⊢
  rw [h3, List.map_map]
  rfl

/-- Every field in quotes. -/
def quoteAll (fields : List (List UInt8)) : List (List Piece) := fields.map (fun s => [Piece.quo s])

theorem fieldOf_quo (s : List UInt8) : fieldOf [.quo s] = s := by
  have hnd : ∀ l : List UInt8, (l.map (fun c => (c, false))).dropWhile (·.2) = l.map (fun c => (c, false)) := by
    intro l; cases l <;> simp
  simp only [fieldOf, trim, List.flatMap_cons, List.flatMap_nil, List.append_nil, Piece.marks]
  rw [hnd, ← List.map_reverse, hnd, ← List.map_reverse, List.reverse_reverse, List.map_map]
  exact List.map_id s

theorem takeWhile_ne_zero {s : List UInt8} (h : (0 : UInt8) ∉ s) : s.takeWhile (· != 0) = s := by
  have := takeWhile_append_all (p := (· != 0)) s [] (by intro c hc; simp only [bne_iff_ne, ne_eq]; rintro rfl; exact h hc)
  simpa using this

/-- **C30: the round trip.** Fields of any content (no NUL, no byte 255), every one in quotes with quotes and backslashes
escaped, separated by a delimiter that is not white space, are read back as they were. Outside of this: one empty field by itself
(`C30_single_empty_lost`) and delimiters that are white space (`C30_white_empty_lost`). -/
theorem C30_round_trip (bs : Nat) (hbs : 0 < bs) (delims : CStr) (hg : GoodDelims delims) (hh : (35 : UInt8) ∉ delims)
    (d : UInt8) (hd : d ∈ delims) (hd2 : d ∉ [(0 : UInt8), 9, 13, 32]) (fields : List (List UInt8))
    (hf : ∀ s ∈ fields, (0 : UInt8) ∉ s ∧ (255 : UInt8) ∉ s) (hne : fields ≠ []) (hb : fields ≠ [[]])
    (pre rest : List UInt8) (hpre : (255 : UInt8) ∉ pre) (fn : List Buf) :
    ∃ l, parseLine (fileSeq bs (pre ++ (writeFields d (quoteAll fields) ++ ([10] ++ rest)))) delims
          ((pre ++ (writeFields d (quoteAll fields) ++ ([10] ++ rest))).length + 1) pre.length fn = .done l ∧
      l.ct = fields.length ∧ l.eof = false ∧ l.pos = pre.length + (writeFields d (quoteAll fields)).length + 1 ∧
      takeStrs l.ct l.fn = .ok fields := by
  obtain ⟨l, h1, h2, h3, h4, h5⟩ := C30_line_fields bs hbs delims hg hh d hd hd2 .newline trivial (by decide) (quoteAll fields)
    (by
      intro f hf' p hp
      simp only [quoteAll, List.mem_map] at hf'
      obtain ⟨s, hs, rfl⟩ := hf'
      simp only [List.mem_singleton] at hp
      subst hp
      exact (hf s hs).2)
    (by simpa [quoteAll] using hne)
    (by
      rintro ⟨f, h1, h2⟩
      cases fields with
      | nil => exact hne rfl
      | cons s r =>
        simp only [quoteAll, List.map_cons, List.cons.injEq, List.map_eq_nil_iff] at h1
        obtain ⟨h3, h4⟩ := h1
        subst h3 h4
        cases s with
        | nil => exact hb rfl
        | cons c s => have := h2 (c, false) (by simp [Piece.marks]); simp at this)
    pre rest hpre fn
  refine ⟨l, h1, by simpa [quoteAll] using h2, h3, h4, ?_⟩
  rw [h5]
  refine congrArg Res.ok ?_
  rw [quoteAll, List.map_map]
  conv => rhs; rw [← List.map_id fields]
  apply List.map_congr_left
  intro s hs
  simp only [Function.comp_apply, fieldOf_quo, id_eq]
  exact takeWhile_ne_zero (hf s hs).1

/-- The default delimiters. -/
def comma : CStr := [124, 44, 9]

/-- The hypotheses can be met: three fields, `a,b`, nothing and ` "\ `, with the default delimiters. -/
example : GoodDelims comma ∧ (35 : UInt8) ∉ comma ∧ (44 : UInt8) ∈ comma ∧ (44 : UInt8) ∉ [(0 : UInt8), 9, 13, 32] ∧
    (∀ s ∈ [[97, 44, 98], [], [32, 34, 92, 32]], (0 : UInt8) ∉ s ∧ (255 : UInt8) ∉ s) ∧
    writeFields 44 (quoteAll [[97, 44, 98], [], [32, 34, 92, 32]]) = str "\"a,b\",\"\",\" \\\"\\\\ \"" := by
  unfold GoodDelims comma
  decide +kernel

/-- **One empty field by itself is lost**: the line `""` is taken as blank. -/
theorem C30_single_empty_lost : (parseLine (fileSeq 100000 (writeFields 44 (quoteAll [[]]) ++ [10])) comma 100 0 []) = .done ⟨0, false, [], 3⟩ := by
  have hs : Shows (fileSeq 100000 [34, 34, 10]) [34, 34, 10] := shows_file (by decide) [34, 34, 10]
  obtain ⟨fn', h1, h2, _⟩ := parse_eq hs (delims := comma) (by decide) 100 0 (by decide) (by decide) []
  have hl : lineOf comma [34, 34, 10] 0 = (⟨[], none, false, false⟩, false, 3) := by decide
  rw [hl] at h1 h2
  simp only [List.length_nil, Nat.max_self, List.length_eq_zero_iff] at h2
  rw [h2] at h1
  exact h1

/-- **With white space as the delimiter, empty fields are lost**, even quoted ones: of `"a" "" "b"` two fields are read. -/
theorem C30_white_empty_lost : ∃ l, parseLine (fileSeq 100000 (writeFields 32 (quoteAll [[97], [], [98]]) ++ [10])) [32] 100 0 [] = .done l ∧
    l.ct = 2 ∧ takeStrs l.ct l.fn = .ok [[97], [98]] := by
  have hs : Shows (fileSeq 100000 [34, 97, 34, 32, 34, 34, 32, 34, 98, 34, 10]) [34, 97, 34, 32, 34, 34, 32, 34, 98, 34, 10] :=
    shows_file (by decide) [34, 97, 34, 32, 34, 34, 32, 34, 98, 34, 10]
  obtain ⟨fn', h1, h2, h3⟩ := parse_eq hs (delims := [32]) (by decide) 100 0 (by decide) (by decide) []
  have hl : lineOf [32] [34, 97, 34, 32, 34, 34, 32, 34, 98, 34, 10] 0 = (⟨[[97], [98]], none, false, false⟩, false, 11) := by decide
  rw [hl] at h1 h3
  exact ⟨_, h1, rfl, h3⟩

/-! ### White space as the delimiter -/

theorem act_lw (fs cur q) (ty : Ty) (h : ty ≠ .WD) (c : UInt8) : (⟨fs, cur, q, true⟩ : A).act ty c = (mk fs cur q).act ty c := by
  simp [A.act, mk, h]

/-- After a white delimiter, a character that is not one goes on as usual. -/
theorem lw_irrel {delims : CStr} (c : UInt8) (r : List UInt8) (hc : classify delims (some c) ≠ .WD) (hh : classify delims (some c) ≠ .hash) (fs : List (List UInt8))
    (cur : Option (List UInt8 × Nat)) (pos : Nat) :
    absLine delims .plain (c :: r) ⟨fs, cur, false, true⟩ pos = absLine delims .plain (c :: r) (mk fs cur) pos := by
  rw [absLine, absLine]
  simp only [hh, false_and, if_false]
  by_cases hb : classify delims (some c) = .bslash
  · rw [if_pos hb, if_pos hb]
    cases r with
    | nil => rw [absLine, absLine, act_lw _ _ _ _ (by simp)]
    | cons d r => rw [absLine, absLine, act_lw _ _ _ _ (by simp)]
  · rw [if_neg hb, if_neg hb]
    have hr : requote false (classify delims (some c)) = classify delims (some c) := by simp [requote]
    simp only [mk, hr]
    rw [act_lw _ _ _ _ hc]
    rfl

/-- Fields with runs of white delimiters between them. -/
def writeWhite : List UInt8 → List (List UInt8 × List Piece) → List UInt8
  | _, [] => []
  | w, [(_, f)] => w ++ f.flatMap Piece.write
  | w, (w', f) :: g :: fs => w ++ f.flatMap Piece.write ++ writeWhite w' (g :: fs)

/-- White delimiters in a row. -/
theorem white_skip {delims : CStr} : ∀ (w : List UInt8), (∀ c ∈ w, classify delims (some c) = .WD) → ∀ (fs : List (List UInt8)) (rest : List UInt8) (pos : Nat),
    absLine delims .plain (w ++ rest) ⟨fs, none, false, true⟩ pos = absLine delims .plain rest ⟨fs, none, false, true⟩ (pos + w.length)
  | [], _, fs, rest, pos => by simp
  | c :: w, h, fs, rest, pos => by
    rw [List.cons_append, absLine, h c (by simp), if_neg (by simp), if_neg (by simp)]
    have h2 : requote false .WD = .WD := rfl
    have h3 : switchq false .WD = false := rfl
    simp only [h2, h3]
    have h1 : (⟨fs, none, false, true⟩ : A).act .WD c = ⟨fs, none, false, true⟩ := by simp [A.act]
    rw [h1, if_neg (by simp), white_skip w (fun x hx => h x (by simp [hx]))]
    simp [Nat.add_assoc, Nat.add_comm, Nat.add_left_comm]

/-- A run of white delimiters closes the field. -/
theorem white_run {delims : CStr} (w : List UInt8) (hw : ∀ c ∈ w, classify delims (some c) = .WD) (fs : List (List UInt8))
    (cur : Option (List UInt8 × Nat)) (rest : List UInt8) (pos : Nat) (hne : w ≠ []) :
    absLine delims .plain (w ++ rest) (mk fs cur) pos =
      absLine delims .plain rest ⟨if cur = none then fs else fs ++ [closeCur cur], none, false, true⟩ (pos + w.length) := by
  cases w with
  | nil => exact absurd rfl hne
  | cons c w =>
    rw [List.cons_append, absLine, hw c (by simp), if_neg (by simp), if_neg (by simp)]
    have h2 : requote (mk fs cur).inqq .WD = .WD := rfl
    have h3 : switchq (mk fs cur).inqq .WD = false := rfl
    simp only [h2, h3]
    have h1 : ({ mk fs cur with inqq := false } : A).act .WD c = ⟨if cur = none then fs else fs ++ [closeCur cur], none, false, true⟩ := by
      cases cur <;> simp [mk, A.act, A.put, closeCur]
    rw [h1, if_neg (by simp), white_skip w (fun x hx => hw x (by simp [hx]))]
    simp [Nat.add_assoc, Nat.add_comm, Nat.add_left_comm]

/-- The first character of a field is neither a white delimiter nor a hash. -/
theorem piece_first {delims : CStr} (hg : GoodDelims delims) (p : Piece) (hp : p.Ok delims) :
    ∃ c r, p.write = c :: r ∧ classify delims (some c) ≠ .WD ∧ classify delims (some c) ≠ .hash := by
  cases p with
  | reg c => exact ⟨c, [], rfl, by rw [cl_reg hp]; simp, by rw [cl_reg hp]; simp⟩
  | sp c => exact ⟨c, [], rfl, by rw [cl_sp hp]; simp, by rw [cl_sp hp]; simp⟩
  | esc c => exact ⟨92, [c], rfl, by rw [cl_bslash hg]; simp, by rw [cl_bslash hg]; simp⟩
  | quo s => exact ⟨34, escText s ++ [34], rfl, by rw [cl_quote hg]; simp, by rw [cl_quote hg]; simp⟩

/-- A field that is not blank, from either state. -/
theorem field_run {delims : CStr} (hg : GoodDelims delims) (f : List Piece) (hok : ∀ p ∈ f, p.Ok delims) (hb : ¬Blank f) (fs : List (List UInt8)) (lw : Bool)
    (rest : List UInt8) (pos : Nat) : ∃ cur, Rep cur (f.flatMap Piece.marks) ∧ cur ≠ none ∧
    absLine delims .plain (f.flatMap Piece.write ++ rest) ⟨fs, none, false, lw⟩ pos = absLine delims .plain rest (mk fs cur) (pos + (f.flatMap Piece.write).length) := by
  have hrep := rep_foldl (f.flatMap Piece.marks) none [] (by simp [Rep])
  simp only [List.nil_append] at hrep
  refine ⟨_, hrep, ?_, ?_⟩
  · intro h; exact hb ((blank_iff f).2 ((rep_none hrep).1 h))
  · cases f with
    | nil => exact absurd (by simp [Blank]) hb
    | cons p f =>
      have hlw : absLine delims .plain ((p :: f).flatMap Piece.write ++ rest) ⟨fs, none, false, lw⟩ pos =
          absLine delims .plain ((p :: f).flatMap Piece.write ++ rest) (mk fs none) pos := by
        obtain ⟨c, r, h1, h2, h3⟩ := piece_first hg p (hok p (by simp))
        simp only [List.flatMap_cons, h1, List.cons_append]
        cases lw
        · rfl
        · exact lw_irrel c _ h2 h3 fs none pos
      rw [hlw]
      exact pieces_run hg (p :: f) hok fs none rest pos

/-- A newline. -/
theorem newline_run {delims : CStr} (hg : GoodDelims delims) (rest : List UInt8) (fs cur pos) :
    absLine delims .plain (10 :: rest) (mk fs cur) pos = ((mk fs cur).act .nl 10, false, pos + 1) := by
  rw [absLine, cl_nl hg, if_neg (by simp), if_neg (by simp)]
  have h1 : ({ mk fs cur with inqq := switchq (mk fs cur).inqq .nl } : A) = mk fs cur := rfl
  have h2 : requote (mk fs cur).inqq .nl = .nl := rfl
  simp only [h1, h2, if_true]

theorem white_fields_run {delims : CStr} (hg : GoodDelims delims) (rest : List UInt8) :
    ∀ (fss : List (List UInt8 × List Piece)), (∀ x ∈ fss, ∀ p ∈ x.2, p.Ok delims) → (∀ x ∈ fss, ¬Blank x.2) →
      (∀ x ∈ fss, x.1 ≠ [] ∧ ∀ c ∈ x.1, classify delims (some c) = .WD) → fss ≠ [] →
      ∀ (w : List UInt8), (∀ c ∈ w, classify delims (some c) = .WD) → ∀ (done : List (List UInt8)) (lw : Bool) (pos : Nat), (w = [] ∨ lw = false) →
      absLine delims .plain (writeWhite w fss ++ 10 :: rest) ⟨done, none, false, lw⟩ pos =
        (mk (done ++ fss.map (fun x => fieldOf x.2)) none, false, pos + (writeWhite w fss).length + 1)
  | [], _, _, _, h, _, _, _, _, _, _ => absurd rfl h
  | (w', f) :: fs, hok, hb, hws, _, w, hw, done, lw, pos, hlw => by
    -- skip the run of white delimiters before the field
    have hskip : ∀ r, ∃ lw', absLine delims .plain (w ++ r) ⟨done, none, false, lw⟩ pos = absLine delims .plain r ⟨done, none, false, lw'⟩ (pos + w.length) := by
      intro r
      by_cases hwn : w = []
      · subst hwn; exact ⟨lw, by simp⟩
      · have hl : lw = false := hlw.resolve_left hwn
        subst hl
        refine ⟨true, ?_⟩
        have := white_run w hw done none r pos hwn
        simpa [mk] using this
    cases fs with
    | nil =>
      simp only [writeWhite, List.append_assoc]
      obtain ⟨lw', e⟩ := hskip (f.flatMap Piece.write ++ 10 :: rest)
      rw [e]
      obtain ⟨cur, c1, c2, c3⟩ := field_run hg f (hok _ List.mem_cons_self) (hb _ List.mem_cons_self) done lw' (10 :: rest) (pos + w.length)
      rw [c3, newline_run hg, act_end _ _ _ _ _ (Or.inl rfl), rep_close c1, if_neg (by simp [c2])]
      simp [fieldOf, Nat.add_assoc, Nat.add_comm, Nat.add_left_comm]
    | cons g fs =>
      simp only [writeWhite, List.append_assoc]
      obtain ⟨lw', e⟩ := hskip (f.flatMap Piece.write ++ (writeWhite w' (g :: fs) ++ 10 :: rest))
      rw [e]
      obtain ⟨cur, c1, c2, c3⟩ := field_run hg f (hok _ List.mem_cons_self) (hb _ List.mem_cons_self) done lw'
        (writeWhite w' (g :: fs) ++ 10 :: rest) (pos + w.length)
      rw [c3]
      obtain ⟨hw1, hw2⟩ := hws _ (List.mem_cons_self)
      -- the run after the field closes it
      have hsplit : ∀ r0 : List UInt8, writeWhite w' (g :: fs) = w' ++ writeWhite [] (g :: fs) := by
        intro _
        cases fs <;> simp [writeWhite]
      rw [hsplit [], List.append_assoc, white_run w' hw2 done cur _ _ hw1, if_neg c2, rep_close c1,
        white_fields_run hg rest (g :: fs) (fun x hx => hok x (by simp [hx])) (fun x hx => hb x (by simp [hx])) (fun x hx => hws x (by simp [hx])) (by simp)
          [] (by simp) _ true _ (Or.inl rfl)]
      simp [fieldOf, Nat.add_assoc, Nat.add_comm, Nat.add_left_comm]

/-- **C30: white space as the delimiter.** Fields that are not blank, separated by runs of delimiters that are white space (a run counts as
one, and a run before the first field is skipped), are read as these fields. -/
theorem C30_white_fields {seq : Seq} (delims : CStr) (hg : GoodDelims delims) (w : List UInt8) (fss : List (List UInt8 × List Piece))
    (hok : ∀ x ∈ fss, ∀ p ∈ x.2, p.Ok delims) (hb : ∀ x ∈ fss, ¬Blank x.2) (hne : fss ≠ [])
    (hws : ∀ x ∈ fss, x.1 ≠ [] ∧ ∀ c ∈ x.1, c ∈ delims ∧ c ∈ [(9 : UInt8), 13, 32]) (hw : ∀ c ∈ w, c ∈ delims ∧ c ∈ [(9 : UInt8), 13, 32])
    (pre rest : List UInt8) (hs : Shows seq (pre ++ (writeWhite w fss ++ 10 :: rest))) (fn : List Buf) :
    ∃ l, parseLine seq delims ((pre ++ (writeWhite w fss ++ 10 :: rest)).length + 1) pre.length fn = .done l ∧
      l.ct = fss.length ∧ l.eof = false ∧ l.pos = pre.length + (writeWhite w fss).length + 1 ∧
      takeStrs l.ct l.fn = .ok (fss.map (fun x => (fieldOf x.2).takeWhile (· != 0))) := by
  have hcl : ∀ c : UInt8, c ∈ delims → c ∈ [(9 : UInt8), 13, 32] → classify delims (some c) = .WD := by
    intro c h1 h2
    simp only [List.mem_cons, List.not_mem_nil, or_false] at h2
    have : (c = 32 ∨ c = 13 ∨ c = 9 ∨ c = 0) := by rcases h2 with h | h | h <;> simp [h]
    simp only [classify]
    rw [if_pos this]
    simp [isDelim, h1]
  obtain ⟨fn', h1, _, h3⟩ := parse_eq hs hg.2.2.2 ((pre ++ (writeWhite w fss ++ 10 :: rest)).length + 1) pre.length
    (by simp) (by omega) fn
  have hl : lineOf delims (pre ++ (writeWhite w fss ++ 10 :: rest)) pre.length =
      (mk (fss.map (fun x => fieldOf x.2)) none, false, pre.length + (writeWhite w fss).length + 1) := by
    have hdrop : (pre ++ (writeWhite w fss ++ 10 :: rest)).drop pre.length = writeWhite w fss ++ 10 :: rest := by simp
    rw [lineOf, hdrop]
    have := white_fields_run hg rest fss hok hb (fun x hx => ⟨(hws x hx).1, fun c hc => hcl c ((hws x hx).2 c hc).1 ((hws x hx).2 c hc).2⟩) hne w
      (fun c hc => hcl c (hw c hc).1 (hw c hc).2) [] false pre.length (Or.inr rfl)
    simpa [mk] using this
  rw [hl] at h1 h3
  refine ⟨_, h1, by simp [mk], rfl, rfl, ?_⟩
  simp only [mk, List.length_map] at h3 ⊢
  rw [h3, List.map_map]
  rfl

/-- Such a line: two blanks, `ab`, a blank and a tab, `"c d"`. -/
example : ∃ (w : List UInt8) (fss : List (List UInt8 × List Piece)), GoodDelims [32, 9] ∧
    (∀ x ∈ fss, ¬Blank x.2) ∧ writeWhite w fss = str "  ab \t\"c d\"" := by
  refine ⟨[32, 32], [([32, 9], [.reg 97, .reg 98]), ([32], [.quo [99, 32, 100]])], by unfold GoodDelims; decide, ?_, by decide +kernel⟩
  intro x hx
  simp only [List.mem_cons, List.not_mem_nil, or_false] at hx
  rcases hx with rfl | rfl
  · intro h; have := h (97, false) (by decide); simp at this
  · intro h; have := h (99, false) (by decide); simp at this

/-- NUL bytes are not white space but delimiters (of the white kind): of `a`, NUL, `b` two fields are read, whatever the delimiters. The
documentation says they are treated as white space. -/
theorem C30_nul_delimits : ∃ l, parseLine (fileSeq 100000 [97, 0, 98, 10]) comma 100 0 [] = .done l ∧
    l.ct = 2 ∧ takeStrs l.ct l.fn = .ok [[97], [98]] := by
  have hs : Shows (fileSeq 100000 [97, 0, 98, 10]) [97, 0, 98, 10] := shows_file (by decide) [97, 0, 98, 10]
  obtain ⟨fn', h1, h2, h3⟩ := parse_eq hs (delims := comma) (by decide) 100 0 (by decide) (by decide) []
  have hl : lineOf comma [97, 0, 98, 10] 0 = (⟨[[97], [98]], none, false, false⟩, false, 4) := by decide
  rw [hl] at h1 h3
  exact ⟨_, h1, rfl, h3⟩

end Apop.Parse
