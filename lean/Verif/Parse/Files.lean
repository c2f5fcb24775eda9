import Verif.Parse.Fields

/-! # Whole files: `apop_text_to_db` (C32, C33) -/

namespace Apop.Parse

/-- `ln` is a whole line, with its newline: whatever follows it, it is read as these fields and the end of the file is not seen. -/
def IsLine (delims : CStr) (ln : List UInt8) (fields : List (List UInt8)) : Prop :=
  ∀ rest pos, (absLine delims .plain (ln ++ rest) {} pos).1.fields = fields ∧
    (absLine delims .plain (ln ++ rest) {} pos).2 = (false, pos + ln.length)

/-- `tl` is the end of a file, without a newline (or empty): reading it gives these fields and sees the end of the file. -/
def IsTail (delims : CStr) (tl : List UInt8) (fields : List (List UInt8)) : Prop :=
  ∀ pos, (absLine delims .plain tl {} pos).1.fields = fields ∧ (absLine delims .plain tl {} pos).2.1 = true

/-- Written lines are lines. -/
theorem writeFields_isLine {delims : CStr} (hg : GoodDelims delims) (hh : (35 : UInt8) ∉ delims) {d : UInt8} (hd : d ∈ delims)
    (hd2 : d ∉ [(0 : UInt8), 9, 13, 32]) (e : LineEnd) (he : e.Ok) (fss : List (List Piece)) (hok : ∀ f ∈ fss, ∀ p ∈ f, p.Ok delims)
    (hne : fss ≠ []) (hb : ¬∃ f, fss = [f] ∧ Blank f) : IsLine delims (writeFields d fss ++ e.write) (fss.map fieldOf) := by
  intro rest pos
  have hcd : classify delims (some d) = .delim := by
    simp only [List.mem_cons, List.not_mem_nil, or_false, not_or] at hd2
    simp [classify, isDelim, hd, hd2]
  have := fields_run hg hh hcd e he rest fss hok hne [] pos (by rintro ⟨_, h⟩; exact hb h)
  rw [List.append_assoc]
  have hmk : (mk [] none : A) = {} := rfl
  rw [hmk] at this
  rw [this]
  simp [mk, Nat.add_assoc]

/-- Blank lines and comment lines have no fields. -/
theorem blank_isLine {delims : CStr} (hg : GoodDelims delims) (hh : (35 : UInt8) ∉ delims) (e : LineEnd) (he : e.Ok) (f : List Piece)
    (hok : ∀ p ∈ f, p.Ok delims) (hb : Blank f) : IsLine delims (f.flatMap Piece.write ++ e.write) [] := by
  intro rest pos
  have hrep := rep_foldl (f.flatMap Piece.marks) none [] (by simp [Rep])
  simp only [List.nil_append] at hrep
  have hcur := (rep_none hrep).2 ((blank_iff f).1 hb)
  have hmk : ({} : A) = mk [] none := rfl
  rw [List.append_assoc, hmk, pieces_run hg f hok, hcur, end_run hg hh e he, act_end _ _ _ _ _ (Or.inl rfl)]
  simp [mk, Nat.add_assoc]

/-- The strings of a line. -/
def strsOf (fields : List (List UInt8)) : List CStr := fields.map (·.takeWhile (· != 0))

/-- Where the rest of the file starts with a line, that line is read. -/
theorem parse_isLine {seq : Seq} {bytes : List UInt8} (hs : Shows seq bytes) {delims : CStr} (hd : (255 : UInt8) ∉ delims) {ln rest : List UInt8}
    {fields : List (List UInt8)} (hl : IsLine delims ln fields) {pos : Nat} (hp : pos ≤ bytes.length) (hdrop : bytes.drop pos = ln ++ rest)
    (fuel : Nat) (hf : bytes.length < fuel) (fn : List Buf) :
    ∃ fn', parseLine seq delims fuel pos fn = .done ⟨fields.length, false, fn', pos + ln.length⟩ ∧
      fn'.length = max fn.length fields.length ∧ takeStrs fields.length fn' = .ok (strsOf fields) := by
  obtain ⟨fn', h1, h2, h3⟩ := parse_eq hs hd fuel pos hp (by omega) fn
  have hlo : (lineOf delims bytes pos).1.fields = fields ∧ (lineOf delims bytes pos).2 = (false, pos + ln.length) := by
    rw [lineOf, hdrop]; exact hl rest pos
  rw [hlo.1, hlo.2] at h1
  rw [hlo.1] at h2 h3
  exact ⟨fn', h1, h2, h3⟩

theorem parse_isTail {seq : Seq} {bytes : List UInt8} (hs : Shows seq bytes) {delims : CStr} (hd : (255 : UInt8) ∉ delims) {tl : List UInt8}
    {fields : List (List UInt8)} (hl : IsTail delims tl fields) {pos : Nat} (hp : pos ≤ bytes.length) (hdrop : bytes.drop pos = tl)
    (fuel : Nat) (hf : bytes.length < fuel) (fn : List Buf) :
    ∃ fn' pos', parseLine seq delims fuel pos fn = .done ⟨fields.length, true, fn', pos'⟩ ∧
      fn'.length = max fn.length fields.length ∧ takeStrs fields.length fn' = .ok (strsOf fields) := by
  obtain ⟨fn', h1, h2, h3⟩ := parse_eq hs hd fuel pos hp (by omega) fn
  have hlo : (lineOf delims bytes pos).1.fields = fields ∧ (lineOf delims bytes pos).2.1 = true := by
    rw [lineOf, hdrop]; exact hl pos
  rw [hlo.1, hlo.2] at h1
  rw [hlo.1] at h2 h3
  exact ⟨fn', _, h1, h2, h3⟩

/-- Lines with their fields. -/
abbrev Lines := List (List UInt8 × List (List UInt8))

/-- Their bytes. -/
def Lines.bytes (ls : Lines) : List UInt8 := ls.flatMap (·.1)

/-- They are lines. -/
def Lines.Ok (delims : CStr) (ls : Lines) : Prop := ∀ x ∈ ls, x.1 ≠ [] ∧ IsLine delims x.1 x.2

/-- The fields of those that are not blank, as strings. -/
def Lines.records (ls : Lines) : List (List CStr) := (ls.filter (fun x => !x.2.isEmpty)).map (fun x => strsOf x.2)

theorem lines_split (ls : Lines) : (∀ x ∈ ls, x.2 = []) ∨ ∃ (bl : Lines) (x : List UInt8 × List (List UInt8)) (r : Lines), ls = bl ++ x :: r ∧ (∀ y ∈ bl, y.2 = []) ∧ x.2 ≠ [] := by
  induction ls with
  | nil => left; simp
  | cons y ls ih =>
    by_cases hy : y.2 = []
    · rcases ih with h | ⟨bl, x, r, h1, h2, h3⟩
      · left
        intro z hz
        simp only [List.mem_cons] at hz
        rcases hz with rfl | hz
        · exact hy
        · exact h z hz
      · right
        refine ⟨y :: bl, x, r, by simp [h1], ?_, h3⟩
        intro z hz
        simp only [List.mem_cons] at hz
        rcases hz with rfl | hz
        · exact hy
        · exact h2 z hz
    · right
      exact ⟨[], y, ls, by simp, by simp, hy⟩

theorem records_blank {ls : Lines} (h : ∀ x ∈ ls, x.2 = []) : ls.records = [] := by
  unfold Lines.records
  rw [List.map_eq_nil_iff, List.filter_eq_nil_iff]
  intro x hx
  simp [h x hx]

theorem records_append (a b : Lines) : Lines.records (a ++ b) = a.records ++ b.records := by
  simp [Lines.records]

theorem records_cons {x} (r : Lines) (h : x.2 ≠ []) : Lines.records (x :: r) = strsOf x.2 :: r.records := by
  unfold Lines.records
  rw [List.filter_cons_of_pos (by simp [h])]
  rfl

section
variable {seq : Seq} {bytes : List UInt8} (hs : Shows seq bytes) {delims : CStr} (hd : (255 : UInt8) ∉ delims)
include hs hd

/-- `firstLine` skips blank lines. -/
theorem firstLine_eq (lf : Nat) (hlf : bytes.length < lf) : ∀ (bl : Lines), bl.Ok delims → (∀ x ∈ bl, x.2 = []) → ∀ (ln : List UInt8) (fields : List (List UInt8)),
    IsLine delims ln fields → fields ≠ [] → ∀ (rest : List UInt8) (pos f : Nat), pos ≤ bytes.length → bytes.drop pos = bl.bytes ++ (ln ++ rest) → bl.length < f →
      ∃ l, firstLine seq delims lf f pos = .done l ∧ l.pos = pos + bl.bytes.length + ln.length ∧ l.fn.length = fields.length ∧
        takeStrs fields.length l.fn = .ok (strsOf fields)
  | [], _, _, ln, fields, hl, hne, rest, pos, f + 1, hp, hdrop, _ => by
    simp only [Lines.bytes, List.flatMap_nil, List.nil_append] at hdrop
    obtain ⟨fn', h1, h2, h3⟩ := parse_isLine hs hd hl hp hdrop lf hlf []
    refine ⟨⟨fields.length, false, fn', pos + ln.length⟩, ?_, rfl, by simpa using h2, h3⟩
    rw [firstLine, h1]
    simp only [Run.bind_done]
    have hfn : fn' ≠ [] := by
      intro h
      subst h
      simp only [List.length_nil] at h2
      have := List.length_pos_iff.2 hne
      omega
    rw [if_neg hfn]
  | (b, bf) :: bl, hok, hbl, ln, fields, hl, hne, rest, pos, f + 1, hp, hdrop, hf => by
    have hb0 : bf = [] := hbl (b, bf) (by simp)
    subst hb0
    simp only [Lines.bytes, List.flatMap_cons, List.append_assoc] at hdrop
    obtain ⟨fn', h1, h2, _⟩ := parse_isLine hs hd (hok (b, []) (by simp)).2 hp hdrop lf hlf []
    simp only [List.length_nil, Nat.max_self, List.length_eq_zero_iff] at h2
    subst h2
    have hlen : b.length ≤ (bytes.drop pos).length := by rw [hdrop]; simp
    rw [List.length_drop] at hlen
    obtain ⟨l, l1, l2, l3, l4⟩ := firstLine_eq lf hlf bl (fun x hx => hok x (by simp [hx])) (fun x hx => hbl x (by simp [hx])) ln fields hl hne rest (pos + b.length) f
      (by omega) (by rw [← List.drop_drop, hdrop, List.drop_left]; rfl) (by simp at hf; omega)
    refine ⟨l, ?_, ?_, l3, l4⟩
    · rw [firstLine, h1]
      simp only [Run.bind_done, if_true]
      exact l1
    · rw [l2]
      simp [Lines.bytes, Nat.add_assoc]

/-- `nextData` skips blank lines, up to a data line. -/
theorem nextData_line (lf : Nat) (hlf : bytes.length < lf) : ∀ (bl : Lines), bl.Ok delims → (∀ x ∈ bl, x.2 = []) → ∀ (ln : List UInt8) (fields : List (List UInt8)),
    IsLine delims ln fields → fields ≠ [] → ∀ (rest : List UInt8) (pos f : Nat) (fn : List Buf) (rows : Nat), pos ≤ bytes.length →
      bytes.drop pos = bl.bytes ++ (ln ++ rest) → bl.length < f →
      ∃ fn', nextData seq delims lf f pos fn rows = .done (⟨fields.length, false, fn', pos + bl.bytes.length + ln.length⟩, rows + bl.length + 1) ∧
        takeStrs fields.length fn' = .ok (strsOf fields)
  | [], _, _, ln, fields, hl, hne, rest, pos, f + 1, fn, rows, hp, hdrop, _ => by
    simp only [Lines.bytes, List.flatMap_nil, List.nil_append] at hdrop
    obtain ⟨fn', h1, h2, h3⟩ := parse_isLine hs hd hl hp hdrop lf hlf fn
    refine ⟨fn', ?_, h3⟩
    rw [nextData, h1]
    simp only [Run.bind_done]
    rw [if_neg (by simp [hne])]
    rfl
  | (b, bf) :: bl, hok, hbl, ln, fields, hl, hne, rest, pos, f + 1, fn, rows, hp, hdrop, hf => by
    have hb0 : bf = [] := hbl (b, bf) (by simp)
    subst hb0
    simp only [Lines.bytes, List.flatMap_cons, List.append_assoc] at hdrop
    obtain ⟨fn', h1, h2, _⟩ := parse_isLine hs hd (hok (b, []) (by simp)).2 hp hdrop lf hlf fn
    have hlen : b.length ≤ (bytes.drop pos).length := by rw [hdrop]; simp
    rw [List.length_drop] at hlen
    obtain ⟨fn'', l1, l2⟩ := nextData_line lf hlf bl (fun x hx => hok x (by simp [hx])) (fun x hx => hbl x (by simp [hx])) ln fields hl hne rest (pos + b.length) f
      fn' (rows + 1) (by omega) (by rw [← List.drop_drop, hdrop, List.drop_left]; rfl) (by simp at hf; omega)
    refine ⟨fn'', ?_, l2⟩
    rw [nextData, h1]
    simp only [Run.bind_done, List.length_nil, and_self, if_true]
    rw [l1]
    simp [Lines.bytes, Nat.add_assoc, Nat.add_comm, Nat.add_left_comm]

/-- `nextData` skips blank lines, up to the end. -/
theorem nextData_tail (lf : Nat) (hlf : bytes.length < lf) : ∀ (bl : Lines), bl.Ok delims → (∀ x ∈ bl, x.2 = []) → ∀ (tl : List UInt8) (fields : List (List UInt8)),
    IsTail delims tl fields → ∀ (pos f : Nat) (fn : List Buf) (rows : Nat), pos ≤ bytes.length →
      bytes.drop pos = bl.bytes ++ tl → bl.length < f →
      ∃ l, nextData seq delims lf f pos fn rows = .done (l, rows + bl.length + 1) ∧ l.eof = true
  | [], _, _, tl, fields, hl, pos, f + 1, fn, rows, hp, hdrop, _ => by
    simp only [Lines.bytes, List.flatMap_nil, List.nil_append] at hdrop
    obtain ⟨fn', pos', h1, h2, h3⟩ := parse_isTail hs hd hl hp hdrop lf hlf fn
    refine ⟨⟨fields.length, true, fn', pos'⟩, ?_, rfl⟩
    rw [nextData, h1]
    simp only [Run.bind_done]
    rw [if_neg (by simp)]
    rfl
  | (b, bf) :: bl, hok, hbl, tl, fields, hl, pos, f + 1, fn, rows, hp, hdrop, hf => by
    have hb0 : bf = [] := hbl (b, bf) (by simp)
    subst hb0
    simp only [Lines.bytes, List.flatMap_cons, List.append_assoc] at hdrop
    obtain ⟨fn', h1, h2, _⟩ := parse_isLine hs hd (hok (b, []) (by simp)).2 hp hdrop lf hlf fn
    have hlen : b.length ≤ (bytes.drop pos).length := by rw [hdrop]; simp
    rw [List.length_drop] at hlen
    obtain ⟨l, l1, l2⟩ := nextData_tail lf hlf bl (fun x hx => hok x (by simp [hx])) (fun x hx => hbl x (by simp [hx])) tl fields hl (pos + b.length) f
      fn' (rows + 1) (by omega) (by rw [← List.drop_drop, hdrop, List.drop_left]; rfl) (by simp at hf; omega)
    refine ⟨l, ?_, l2⟩
    rw [nextData, h1]
    simp only [Run.bind_done, List.length_nil, and_self, if_true]
    rw [l1]
    simp [Nat.add_assoc, Nat.add_comm, Nat.add_left_comm]

/-- The records of the lines still to come. -/
theorem dbLoop_eq (lf : Nat) (hlf : bytes.length < lf) (tl : List UInt8) (tf : List (List UInt8)) (ht : IsTail delims tl tf) :
    ∀ (n : Nat) (ls : Lines), ls.length ≤ n → ls.Ok delims → ∀ (l : Line) (fields : List (List UInt8)) (rows f : Nat),
      l.ct = fields.length → fields ≠ [] → l.eof = false → takeStrs fields.length l.fn = .ok (strsOf fields) → l.pos ≤ bytes.length →
      bytes.drop l.pos = ls.bytes ++ tl → ls.length + 1 < f →
      dbLoop seq delims lf f l rows = .done (strsOf fields :: ls.records, rows + ls.length + 1)
  | n, ls, hn, hok, l, fields, rows, f + 1, h1, h2, h3, h4, h5, h6, h7 => by
    have hct : ¬(l.ct = 0 ∨ l.eof = true) := by
      rw [h1, h3]
      simp [h2]
    rw [dbLoop, if_neg hct, h1, h4]
    simp only [Run.ofRes_ok, Run.bind_done]
    rcases lines_split ls with hb | ⟨bl, x, r, rfl, hb, hx⟩
    · obtain ⟨l', e1, e2⟩ := nextData_tail hs hd lf hlf ls hok hb tl tf ht l.pos f l.fn rows h5 h6 (by omega)
      rw [e1]
      simp only [Run.bind_done]
      obtain ⟨g, rfl⟩ : ∃ g, f = g + 1 := ⟨f - 1, by omega⟩
      rw [dbLoop, if_pos (Or.inr e2)]
      simp only [Run.bind_done, records_blank hb]
    · have hbk : Lines.Ok delims bl := fun y hy => hok y (by simp [hy])
      have hxk := hok x (by simp)
      have hbytes : Lines.bytes (bl ++ x :: r) ++ tl = Lines.bytes bl ++ (x.1 ++ (Lines.bytes r ++ tl)) := by simp [Lines.bytes]
      rw [hbytes] at h6
      obtain ⟨fn', e1, e2⟩ := nextData_line hs hd lf hlf bl hbk hb x.1 x.2 hxk.2 hx (Lines.bytes r ++ tl) l.pos f l.fn rows h5 h6
        (by simp at h7; omega)
      rw [e1]
      simp only [Run.bind_done]
      have hlen : (Lines.bytes bl).length + x.1.length ≤ (bytes.drop l.pos).length := by rw [h6]; simp
      rw [List.length_drop] at hlen
      cases n with
      | zero => simp at hn
      | succ n =>
        have := dbLoop_eq lf hlf tl tf ht n r (by simp at hn; omega) (fun y hy => hok y (by simp [hy]))
          ⟨x.2.length, false, fn', l.pos + (Lines.bytes bl).length + x.1.length⟩ x.2 (rows + bl.length + 1) f rfl hx rfl e2
          (by simp only; omega)
          (by
            have hdd : bytes.drop (l.pos + (Lines.bytes bl).length + x.1.length) = ((bytes.drop l.pos).drop (Lines.bytes bl).length).drop x.1.length := by
              rw [List.drop_drop, List.drop_drop, Nat.add_assoc]
            simp only
            rw [hdd, h6, List.drop_left, List.drop_left])
          (by simp at h7; omega)
        rw [this]
        simp only [Run.bind_done]
        rw [records_append, records_blank hb, List.nil_append, records_cons _ hx]
        simp [Nat.add_assoc, Nat.add_comm, Nat.add_left_comm]

end

/-! ## The theorems -/

/-- Blank lines, then a line with fields. -/
structure Head (delims : CStr) (bl : Lines) (ln : List UInt8) (fields : List (List UInt8)) : Prop where
  ok : bl.Ok delims
  blank : ∀ x ∈ bl, x.2 = []
  line : IsLine delims ln fields
  ne : fields ≠ []

/-- **What `apop_text_to_db` does with a file.** `tl` is what is left after the last newline. Its fields are not inserted;
the return value is one more than the number of lines from the first data line on, blank ones included. -/
theorem textToDb_nohead {seq : Seq} {delims : CStr} (hd : (255 : UInt8) ∉ delims) {bl : Lines} {ln : List UInt8} {fields : List (List UInt8)}
    (h : Head delims bl ln fields) (ls : Lines) (hls : ls.Ok delims) (tl : List UInt8) (tf : List (List UInt8)) (ht : IsTail delims tl tf)
    (bytes : List UInt8) (hb : bytes = bl.bytes ++ (ln ++ (ls.bytes ++ tl))) (hs : Shows seq bytes)
    (fuel : Nat) (hf : bytes.length + bl.length + ls.length + 2 < fuel) :
    textToDb seq delims fuel false = .done ([], strsOf fields :: ls.records, 1 + ls.length + 1) := by
  unfold textToDb
  simp only [Bool.false_eq_true, if_false, Run.bind_done]
  obtain ⟨l, l1, l2, l3, l4⟩ := firstLine_eq hs hd fuel (by omega) bl h.ok h.blank ln fields h.line h.ne (ls.bytes ++ tl) 0 fuel
    (by omega) (by simpa using hb) (by omega)
  rw [l1]
  simp only [Run.bind_done]
  rw [dbLoop_eq hs hd fuel (by omega) tl tf ht ls.length ls (Nat.le_refl _) hls _ fields 1 fuel (by simpa using l3) h.ne rfl (by simpa using l4)
    (by simp only [l2]; rw [hb]; simp) (by
      simp only [l2, Nat.zero_add]
      have : bytes.drop (bl.bytes.length + ln.length) = (bytes.drop bl.bytes.length).drop ln.length := by rw [List.drop_drop]
      rw [this, hb, List.drop_left, List.drop_left]) (by omega)]
  rfl

theorem textToDb_head {seq : Seq} {delims : CStr} (hd : (255 : UInt8) ∉ delims) {hbl : Lines} {hln : List UInt8} {names : List (List UInt8)}
    (hh : Head delims hbl hln names) {bl : Lines} {ln : List UInt8} {fields : List (List UInt8)}
    (h : Head delims bl ln fields) (ls : Lines) (hls : ls.Ok delims) (tl : List UInt8) (tf : List (List UInt8)) (ht : IsTail delims tl tf)
    (bytes : List UInt8) (hb : bytes = hbl.bytes ++ (hln ++ (bl.bytes ++ (ln ++ (ls.bytes ++ tl))))) (hs : Shows seq bytes)
    (fuel : Nat) (hf : bytes.length + hbl.length + bl.length + ls.length + 2 < fuel) :
    textToDb seq delims fuel true = .done (strsOf names, strsOf fields :: ls.records, 1 + ls.length + 1) := by
  unfold textToDb
  simp only [if_true]
  obtain ⟨m, m1, m2, m3, m4⟩ := firstLine_eq hs hd fuel (by omega) hbl hh.ok hh.blank hln names hh.line hh.ne (bl.bytes ++ (ln ++ (ls.bytes ++ tl))) 0 fuel
    (by omega) (by simpa using hb) (by omega)
  rw [m1]
  simp only [Run.bind_done]
  rw [m3, m4]
  simp only [Run.ofRes_ok, Run.bind_done]
  have hdrop : bytes.drop m.pos = bl.bytes ++ (ln ++ (ls.bytes ++ tl)) := by
    rw [m2, Nat.zero_add]
    have : bytes.drop (hbl.bytes.length + hln.length) = (bytes.drop hbl.bytes.length).drop hln.length := by rw [List.drop_drop]
    rw [this, hb, List.drop_left, List.drop_left]
  have hmp : m.pos + bl.bytes.length + ln.length ≤ bytes.length := by rw [m2, hb]; simp; omega
  obtain ⟨l, l1, l2, l3, l4⟩ := firstLine_eq hs hd fuel (by omega) bl h.ok h.blank ln fields h.line h.ne (ls.bytes ++ tl) m.pos fuel
    (by omega) hdrop (by omega)
  rw [l1]
  simp only [Run.bind_done]
  rw [dbLoop_eq hs hd fuel (by omega) tl tf ht ls.length ls (Nat.le_refl _) hls _ fields 1 fuel (by simpa using l3) h.ne rfl (by simpa using l4)
    (by simp only [l2]; omega) (by
      simp only [l2]
      have : bytes.drop (m.pos + bl.bytes.length + ln.length) = ((bytes.drop m.pos).drop bl.bytes.length).drop ln.length := by
        rw [List.drop_drop, List.drop_drop, Nat.add_assoc]
      rw [this, hdrop, List.drop_left, List.drop_left]) (by omega)]
  rfl

theorem nil_isTail (delims : CStr) : IsTail delims [] [] := by
  intro pos
  rw [absLine]
  exact ⟨rfl, rfl⟩

/-- The end of the file after some bytes that are not 255. -/
theorem shows_file' {bs : Nat} (hb : 0 < bs) {file : List UInt8} (h : (255 : UInt8) ∉ file) : Shows (fileSeq bs file) file := by
  have := shows_file hb file
  have e := takeWhile_append_all (p := (· != 255)) file [] (by intro c hc; simp only [bne_iff_ne, ne_eq]; rintro rfl; exact h hc)
  simp only [List.append_nil, List.takeWhile_nil] at e
  rwa [e] at this

/-- **C33 (files that end in a newline, with a data line; no byte 255).** With a header: the names are the fields of the first line
that is not blank, and one record is inserted for each line after it that is not blank, in order. The return value is not the number of
records: see `C33_return_off`. Outside of this: files whose last line has no newline (`C33_last_line_dropped`). -/
theorem C33_records (bs : Nat) (hbs : 0 < bs) (delims : CStr) (hd : (255 : UInt8) ∉ delims) {hbl : Lines} {hln : List UInt8} {names : List (List UInt8)}
    (hh : Head delims hbl hln names) {bl : Lines} {ln : List UInt8} {fields : List (List UInt8)} (h : Head delims bl ln fields)
    (ls : Lines) (hls : ls.Ok delims) (file : List UInt8) (hfile : file = hbl.bytes ++ (hln ++ (bl.bytes ++ (ln ++ ls.bytes)))) (h255 : (255 : UInt8) ∉ file)
    (fuel : Nat) (hf : file.length + hbl.length + bl.length + ls.length + 2 < fuel) :
    ∃ ret, textToDb (fileSeq bs file) delims fuel true = .done (strsOf names, strsOf fields :: ls.records, ret) :=
  ⟨_, textToDb_head hd hh h ls hls [] [] (nil_isTail _) file (by simpa using hfile) (shows_file' hbs h255) fuel hf⟩

/-- **C33, without a header line.** -/
theorem C33_records_nohead (bs : Nat) (hbs : 0 < bs) (delims : CStr) (hd : (255 : UInt8) ∉ delims) {bl : Lines} {ln : List UInt8} {fields : List (List UInt8)}
    (h : Head delims bl ln fields) (ls : Lines) (hls : ls.Ok delims) (file : List UInt8) (hfile : file = bl.bytes ++ (ln ++ ls.bytes)) (h255 : (255 : UInt8) ∉ file)
    (fuel : Nat) (hf : file.length + bl.length + ls.length + 2 < fuel) :
    ∃ ret, textToDb (fileSeq bs file) delims fuel false = .done ([], strsOf fields :: ls.records, ret) :=
  ⟨_, textToDb_nohead hd h ls hls [] [] (nil_isTail _) file (by simpa using hfile) (shows_file' hbs h255) fuel hf⟩

/-- **The return value is wrong, always**: it is one more than the number of lines from the first data line to the last newline, and so at
least one more than the number of records inserted. -/
theorem C33_return_off (bs : Nat) (hbs : 0 < bs) (delims : CStr) (hd : (255 : UInt8) ∉ delims) {bl : Lines} {ln : List UInt8} {fields : List (List UInt8)}
    (h : Head delims bl ln fields) (ls : Lines) (hls : ls.Ok delims) (file : List UInt8) (hfile : file = bl.bytes ++ (ln ++ ls.bytes)) (h255 : (255 : UInt8) ∉ file)
    (fuel : Nat) (hf : file.length + bl.length + ls.length + 2 < fuel) :
    ∃ recs ret, textToDb (fileSeq bs file) delims fuel false = .done ([], recs, ret) ∧ ret = ls.length + 2 ∧ recs.length < ret := by
  refine ⟨_, _, textToDb_nohead hd h ls hls [] [] (nil_isTail _) file (by simpa using hfile) (shows_file' hbs h255) fuel hf, by omega, ?_⟩
  have : ls.records.length ≤ ls.length := by
    unfold Lines.records
    rw [List.length_map]
    exact List.length_filter_le _ _
  rw [List.length_cons]
  omega

/-- **A last line without a newline is dropped**: whatever fields it has, no record is inserted for it (unless it is the first data
line: see `C32_single_unterminated_ub`). -/
theorem C33_last_line_dropped (bs : Nat) (hbs : 0 < bs) (delims : CStr) (hd : (255 : UInt8) ∉ delims) {bl : Lines} {ln : List UInt8} {fields : List (List UInt8)}
    (h : Head delims bl ln fields) (ls : Lines) (hls : ls.Ok delims) (tl : List UInt8) (tf : List (List UInt8)) (ht : IsTail delims tl tf)
    (file : List UInt8) (hfile : file = bl.bytes ++ (ln ++ (ls.bytes ++ tl))) (h255 : (255 : UInt8) ∉ file)
    (fuel : Nat) (hf : file.length + bl.length + ls.length + 2 < fuel) :
    ∃ ret, textToDb (fileSeq bs file) delims fuel false = .done ([], strsOf fields :: ls.records, ret) :=
  ⟨_, textToDb_nohead hd h ls hls tl tf ht file hfile (shows_file' hbs h255) fuel hf⟩

/-- Such a tail: `c,d` without a newline has two fields, and `a,b` with a newline is a line. -/
theorem cd_isTail : IsTail comma (str "c,d") (str "c" :: [str "d"]) := by
  have e : str "c,d" = [99, 44, 100] := by decide +kernel
  have e1 : str "c" = [99] := by decide +kernel
  have e2 : str "d" = [100] := by decide +kernel
  rw [e, e1, e2]
  intro pos
  simp [absLine, comma, classify, isDelim, requote, switchq, A.act, A.put]

theorem ab_isLine : IsLine comma [97, 44, 98, 10] [[97], [98]] := by
  intro rest pos
  simp [absLine, comma, classify, isDelim, requote, switchq, A.act, A.put]

/-- The hypotheses can be met: a file with a header, a blank line, two data lines; and one with an unterminated last line. -/
example : ∃ (hbl bl ls : Lines) (hln ln tl : List UInt8) (names fields tf : List (List UInt8)), Head comma hbl hln names ∧ Head comma bl ln fields ∧
    ls.Ok comma ∧ IsTail comma tl tf ∧ tf ≠ [] ∧ ls.records ≠ [] := by
  have hb : IsLine comma [10] [] := by
    have := blank_isLine (delims := comma) (by unfold GoodDelims comma; decide) (by decide) .newline trivial [] (by simp) (by simp [Blank])
    simpa [LineEnd.write] using this
  refine ⟨[], [([10], [])], [([97, 44, 98, 10], [[97], [98]])], [97, 44, 98, 10], [97, 44, 98, 10], str "c,d", [[97], [98]], [[97], [98]], str "c" :: [str "d"],
    ⟨by simp [Lines.Ok], by simp, ab_isLine, by simp⟩, ⟨?_, by simp, ab_isLine, by simp⟩, ?_, cd_isTail, by simp, by simp [Lines.records]⟩
  · intro x hx
    simp only [List.mem_singleton] at hx
    subst hx
    exact ⟨by simp, hb⟩
  · intro x hx
    simp only [List.mem_singleton] at hx
    subst hx
    exact ⟨by simp, ab_isLine⟩

/-! ## C32: the end of the file -/

/-- **C32 (files with a data line that ends in a newline).** What `apop_text_to_db` inserts and returns depends only on the bytes of the file, whatever
the reader would give after the end: two readers that show the same file have the same outcome. Outside of this: the cases refuted below. -/
theorem C32_db_only_file {seq seq' : Seq} (delims : CStr) (hd : (255 : UInt8) ∉ delims) {hbl : Lines} {hln : List UInt8} {names : List (List UInt8)}
    (hh : Head delims hbl hln names) {bl : Lines} {ln : List UInt8} {fields : List (List UInt8)} (h : Head delims bl ln fields)
    (ls : Lines) (hls : ls.Ok delims) (tl : List UInt8) (tf : List (List UInt8)) (ht : IsTail delims tl tf) (file : List UInt8)
    (hfile : file = hbl.bytes ++ (hln ++ (bl.bytes ++ (ln ++ (ls.bytes ++ tl))))) (hs : Shows seq file) (hs' : Shows seq' file)
    (fuel : Nat) (hf : file.length + hbl.length + bl.length + ls.length + 2 < fuel) :
    textToDb seq delims fuel true = textToDb seq' delims fuel true ∧ textToDb seq delims fuel true ≠ .ub ∧ textToDb seq delims fuel true ≠ .more := by
  rw [textToDb_head hd hh h ls hls tl tf ht file hfile hs fuel hf, textToDb_head hd hh h ls hls tl tf ht file hfile hs' fuel hf]
  exact ⟨rfl, by simp, by simp⟩

theorem absLine_eof_pos (delims : CStr) : ∀ (r : List UInt8) (md : Mode) (a : A) (pos : Nat), (absLine delims md r a pos).2.1 = true →
    (absLine delims md r a pos).2.2 = pos + r.length + 1
  | [], .comment, a, pos, h => by rw [absLine] at h; simp at h
  | [], .escaped, a, pos, h => by rw [absLine]; rfl
  | [], .plain, a, pos, h => by rw [absLine]; rfl
  | c :: r, .comment, a, pos, h => by
    rw [absLine] at h ⊢
    split
    · rename_i hc; rw [if_pos hc] at h; simp at h
    · rename_i hc
      rw [if_neg hc] at h
      rw [absLine_eof_pos delims r _ _ _ h]
      simp [Nat.add_assoc, Nat.add_comm, Nat.add_left_comm]
  | c :: r, .escaped, a, pos, h => by
    rw [absLine] at h ⊢
    rw [absLine_eof_pos delims r _ _ _ h]
    simp [Nat.add_assoc, Nat.add_comm, Nat.add_left_comm]
  | c :: r, .plain, a, pos, h => by
    rw [absLine] at h ⊢
    split
    · rename_i hc
      rw [if_pos hc] at h
      rw [absLine_eof_pos delims r _ _ _ h]
      simp [Nat.add_assoc, Nat.add_comm, Nat.add_left_comm]
    · rename_i hc
      rw [if_neg hc] at h
      split
      · rename_i hc2
        rw [if_pos hc2] at h
        rw [absLine_eof_pos delims r _ _ _ h]
        simp [Nat.add_assoc, Nat.add_comm, Nat.add_left_comm]
      · rename_i hc2
        rw [if_neg hc2] at h
        simp only at h ⊢
        split
        · rename_i hc3; rw [if_pos hc3] at h; simp at h
        · rename_i hc3
          rw [if_neg hc3] at h
          rw [absLine_eof_pos delims r _ _ _ h]
          simp [Nat.add_assoc, Nat.add_comm, Nat.add_left_comm]

/-- A line read where the reader has nothing: undefined. -/
theorem parse_ub {seq : Seq} {pos : Nat} (h : seq pos = .ub) (delims : CStr) (f : Nat) (fn : List Buf) : parseLine seq delims (f + 1) pos fn = .ub := by
  simp [parseLine, lineLoop, readTok, h]

section
variable {seq : Seq} {bytes : List UInt8} (hs : Shows seq bytes) (hub : seq (bytes.length + 1) = .ub) {delims : CStr} (hd : (255 : UInt8) ∉ delims)
include hs hub hd

/-- Looking for a line with fields where there is none left. -/
theorem firstLine_ub (lf : Nat) (hlf : bytes.length < lf) : ∀ (bl : Lines), bl.Ok delims → (∀ x ∈ bl, x.2 = []) → ∀ (tl : List UInt8), IsTail delims tl [] →
    ∀ (pos f : Nat), pos ≤ bytes.length → bytes.drop pos = bl.bytes ++ tl → bl.length + 1 < f → firstLine seq delims lf f pos = .ub
  | [], _, _, tl, ht, pos, f + 1, hp, hdrop, hf => by
    simp only [Lines.bytes, List.flatMap_nil, List.nil_append] at hdrop
    obtain ⟨fn', h1, h2, _⟩ := parse_eq hs hd lf pos hp (by omega) []
    have hlo := ht pos
    rw [← hdrop] at hlo
    have hpos := absLine_eof_pos delims (bytes.drop pos) .plain {} pos hlo.2
    have e1 : (lineOf delims bytes pos).1.fields = [] := hlo.1
    have e2 : (lineOf delims bytes pos).2.2 = bytes.length + 1 := by
      rw [lineOf, hpos, List.length_drop]; omega
    rw [e1, e2] at h1
    rw [e1] at h2
    simp only [List.length_nil, Nat.max_self, List.length_eq_zero_iff] at h2
    subst h2
    obtain ⟨g, rfl⟩ : ∃ g, f = g + 1 := ⟨f - 1, by omega⟩
    obtain ⟨lf', rfl⟩ : ∃ lf', lf = lf' + 1 := ⟨lf - 1, by omega⟩
    rw [firstLine, h1]
    simp only [Run.bind_done, if_true]
    rw [firstLine, parse_ub hub]
    rfl
  | (b, bf) :: bl, hok, hbl, tl, ht, pos, f + 1, hp, hdrop, hf => by
    have hb0 : bf = [] := hbl (b, bf) (by simp)
    subst hb0
    simp only [Lines.bytes, List.flatMap_cons, List.append_assoc] at hdrop
    obtain ⟨fn', h1, h2, _⟩ := parse_isLine hs hd (hok (b, []) (by simp)).2 hp hdrop lf hlf []
    simp only [List.length_nil, Nat.max_self, List.length_eq_zero_iff] at h2
    subst h2
    have hlen : b.length ≤ (bytes.drop pos).length := by rw [hdrop]; simp
    rw [List.length_drop] at hlen
    rw [firstLine, h1]
    simp only [Run.bind_done, if_true]
    exact firstLine_ub lf hlf bl (fun x hx => hok x (by simp [hx])) (fun x hx => hbl x (by simp [hx])) tl ht (pos + b.length) f
      (by omega) (by rw [← List.drop_drop, hdrop, List.drop_left]; rfl) (by simp at hf; omega)

end

/-- **Files with no data at all** (empty, or only blank lines and comments): both functions read on after the end, in memory never
written. -/
theorem C32_no_data_ub (bs : Nat) (delims : CStr) (hd : (255 : UInt8) ∉ delims) (bl : Lines) (hok : bl.Ok delims) (hb : ∀ x ∈ bl, x.2 = [])
    (h255 : (255 : UInt8) ∉ bl.bytes) (hlen : bl.bytes.length + 1 < bs) (header : Bool) (fuel : Nat) (hf : bl.bytes.length + bl.length + 2 < fuel) {V : Type} (cell : CStr → V) (hr : Nat) :
    textToDb (fileSeq bs bl.bytes) delims fuel header = .ub ∧ textToData cell (fileSeq bs bl.bytes) delims fuel hr true = .ub := by
  have h0 := firstLine_ub (shows_file' (by omega) h255) (C32_after_end_ub bs bl.bytes hlen) hd fuel (by omega) bl hok hb [] (nil_isTail _) 0 fuel
    (by omega) (by simp) (by omega)
  constructor
  · unfold textToDb
    cases header
    · simp [h0]
    · simp [h0]
  · unfold textToData
    simp [h0]

/-- The empty file. -/
theorem C32_empty_ub (delims : CStr) (hd : (255 : UInt8) ∉ delims) (header : Bool) : textToDb (fileSeq 100000 []) delims 3 header = .ub :=
  (C32_no_data_ub 100000 delims hd [] (by simp [Lines.Ok]) (by simp) (by simp [Lines.bytes]) (by simp [Lines.bytes]) header 3 (by simp [Lines.bytes]) (fun _ => ()) 0).1

/-- **Header-only files**: the search for the first data line goes on after the end. -/
theorem C32_header_only_ub (bs : Nat) (delims : CStr) (hd : (255 : UInt8) ∉ delims) {hbl : Lines} {hln : List UInt8} {names : List (List UInt8)}
    (hh : Head delims hbl hln names) (bl : Lines) (hok : bl.Ok delims) (hb : ∀ x ∈ bl, x.2 = []) (file : List UInt8)
    (hfile : file = hbl.bytes ++ (hln ++ bl.bytes)) (h255 : (255 : UInt8) ∉ file) (hlen : file.length + 1 < bs)
    (fuel : Nat) (hf : file.length + hbl.length + bl.length + 2 < fuel) {V : Type} (cell : CStr → V) (hr : Nat) :
    textToDb (fileSeq bs file) delims fuel true = .ub ∧ textToData cell (fileSeq bs file) delims fuel hr true = .ub := by
  have hs : Shows (fileSeq bs file) file := shows_file' (by omega) h255
  obtain ⟨m, m1, m2, m3, m4⟩ := firstLine_eq hs hd fuel (by omega) hbl hh.ok hh.blank hln names hh.line hh.ne bl.bytes 0 fuel
    (by omega) (by simpa using hfile) (by omega)
  have hdrop : file.drop m.pos = bl.bytes ++ [] := by
    rw [m2, Nat.zero_add]
    have : file.drop (hbl.bytes.length + hln.length) = (file.drop hbl.bytes.length).drop hln.length := by rw [List.drop_drop]
    rw [this, hfile, List.drop_left, List.drop_left, List.append_nil]
  have h0 := firstLine_ub hs (C32_after_end_ub bs file hlen) hd fuel (by omega) bl hok hb [] (nil_isTail _) m.pos fuel
    (by rw [m2, hfile]; simp) hdrop (by omega)
  constructor
  · unfold textToDb
    simp only [if_true, m1, Run.bind_done, m3, m4, Run.ofRes_ok, h0]
    rfl
  · unfold textToData
    simp only [if_true, m1, Run.bind_done, h0]
    rfl

/-- **A single data line without a newline**: `apop_text_to_db` inserts it, and then reads on after the end. -/
theorem C32_single_unterminated_ub (bs : Nat) (delims : CStr) (hd : (255 : UInt8) ∉ delims) (tl : List UInt8) (tf : List (List UInt8))
    (ht : IsTail delims tl tf) (hne : tf ≠ []) (h255 : (255 : UInt8) ∉ tl) (hlen : tl.length + 1 < bs) (fuel : Nat) (hf : tl.length + 2 < fuel) :
    textToDb (fileSeq bs tl) delims fuel false = .ub := by
  have hs : Shows (fileSeq bs tl) tl := shows_file' (by omega) h255
  have hub := C32_after_end_ub bs tl hlen
  obtain ⟨fn', h1, h2, h3⟩ := parse_eq hs hd fuel 0 (by omega) (by omega) []
  have hlo := ht 0
  have hpos := absLine_eof_pos delims tl .plain {} 0 hlo.2
  have e1 : (lineOf delims tl 0).1.fields = tf := hlo.1
  have e2 : (lineOf delims tl 0).2.2 = tl.length + 1 := by
    rw [lineOf, List.drop_zero, hpos]; omega
  rw [e1, e2] at h1
  rw [e1] at h2 h3
  simp only [List.length_nil, Nat.zero_max] at h2
  have hp := List.length_pos_iff.2 hne
  have hfn : fn' ≠ [] := by
    intro h; subst h; simp at h2; omega
  obtain ⟨f, rfl⟩ : ∃ f, fuel = f + 2 := ⟨fuel - 2, by omega⟩
  unfold textToDb
  simp only [Bool.false_eq_true, if_false, Run.bind_done]
  rw [firstLine, h1]
  simp only [Run.bind_done]
  rw [if_neg hfn]
  simp only [Run.bind_done]
  rw [dbLoop]
  simp only [h2, h3, Run.ofRes_ok, Run.bind_done, Bool.false_eq_true, or_false]
  rw [if_neg (by omega)]
  rw [nextData, parse_ub hub]
  rfl

/-- **A comment on the last line hides the end of the file**: a data line, then a comment without a newline; the next line is read after the
end. -/
theorem C32_last_comment_ub (bs : Nat) (delims : CStr) (hd : (255 : UInt8) ∉ delims) (hh : (35 : UInt8) ∉ delims) {ln : List UInt8} {fields : List (List UInt8)}
    (hl : IsLine delims ln fields) (hne : fields ≠ []) (s : List UInt8) (hs10 : (10 : UInt8) ∉ s) (file : List UInt8) (hfile : file = ln ++ 35 :: s)
    (h255 : (255 : UInt8) ∉ file) (hlen : file.length + 1 < bs) (fuel : Nat) (hf : file.length + 3 < fuel) :
    textToDb (fileSeq bs file) delims fuel false = .ub := by
  have hs : Shows (fileSeq bs file) file := shows_file' (by omega) h255
  have hub := C32_after_end_ub bs file hlen
  obtain ⟨l, l1, l2, l3, l4⟩ := firstLine_eq hs hd fuel (by omega) [] (by simp [Lines.Ok]) (by simp) ln fields hl hne (35 :: s) 0 fuel
    (by omega) (by simpa [Lines.bytes] using hfile) (by simp; omega)
  simp only [Lines.bytes, List.flatMap_nil, List.length_nil, Nat.add_zero, Nat.zero_add] at l2
  have hcom : ∀ (r : List UInt8) (a : A) (pos : Nat), (10 : UInt8) ∉ r → absLine delims .comment r a pos = (a.act .nl 35, false, pos + r.length + 1) := by
    intro r
    induction r with
    | nil => intro a pos _; rw [absLine]; rfl
    | cons c r ih =>
      intro a pos h
      simp only [List.mem_cons, not_or] at h
      rw [absLine, if_neg (fun hc => h.1 hc.symm), ih _ _ h.2]
      simp [Nat.add_assoc, Nat.add_comm, Nat.add_left_comm]
  have hc : classify delims (some 35) = .hash := by simp [classify, isDelim, hh]
  have hlo : lineOf delims file l.pos = (({} : A).act .nl 35, false, file.length + 1) := by
    rw [lineOf, l2, hfile, List.drop_left, absLine, hc, if_pos ⟨rfl, rfl⟩, hcom s _ _ hs10]
    simp [Nat.add_assoc, Nat.add_comm, Nat.add_left_comm]
  obtain ⟨fn', h1, h2, h3⟩ := parse_eq hs hd fuel l.pos (by rw [l2, hfile]; simp) (by omega) l.fn
  rw [hlo] at h1
  have hz : ((({} : A).act .nl 35).fields).length = 0 := by decide
  simp only [hz] at h1
  have hp := List.length_pos_iff.2 hne
  unfold textToDb
  simp only [Bool.false_eq_true, if_false, Run.bind_done]
  rw [l1]
  simp only [Run.bind_done]
  obtain ⟨f, rfl⟩ : ∃ f, fuel = f + 3 := ⟨fuel - 3, by omega⟩
  rw [dbLoop]
  simp only [l3, l4, Run.ofRes_ok, Run.bind_done, Bool.false_eq_true, or_false]
  rw [if_neg (by omega), nextData, h1]
  simp only [Run.bind_done, and_self, if_true]
  rw [nextData, parse_ub hub]
  rfl

/-- The byte 255 ends the file: what comes after it is not read. -/
theorem C32_byte255_ends (bs : Nat) (hb : 0 < bs) (pre post : List UInt8) (h : (255 : UInt8) ∉ pre) : Shows (fileSeq bs (pre ++ 255 :: post)) pre := by
  have := shows_file hb (pre ++ 255 :: post)
  have e := takeWhile_append_all (p := (· != 255)) pre (255 :: post) (by intro c hc; simp only [bne_iff_ne, ne_eq]; rintro rfl; exact h hc)
  rw [e] at this
  simpa using this

/-- The refuted cases exist: `a,b` and a newline; the same and `#x`; `c,d`. -/
example : textToDb (fileSeq 100000 [97, 44, 98, 10]) comma 20 true = .ub ∧ textToDb (fileSeq 100000 [97, 44, 98, 10, 35, 120]) comma 20 false = .ub ∧
    textToDb (fileSeq 100000 (str "c,d")) comma 20 false = .ub :=
  ⟨(C32_header_only_ub 100000 comma (by decide) (hbl := []) ⟨by simp [Lines.Ok], by simp, ab_isLine, by simp⟩ [] (by simp [Lines.Ok]) (by simp) _ rfl (by decide) (by decide) 20 (by decide) (fun _ => ()) 0).1,
   C32_last_comment_ub 100000 comma (by decide) (by decide) ab_isLine (by simp) [120] (by decide) _ rfl (by decide) (by decide) 20 (by decide),
   C32_single_unterminated_ub 100000 comma (by decide) _ _ cd_isTail (by simp) (by decide +kernel) (by decide +kernel) 20 (by decide +kernel)⟩

end Apop.Parse
