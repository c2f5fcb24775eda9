import Verif.Parse.Files

/-! # `apop_text_to_data` (C45) -/

namespace Apop.Parse

variable {V : Type} (cell : CStr → V)

/-- What the data lines make: a row for each, until one that is too long. -/
def expect (hr cols : Nat) : List (List CStr) → TSet V
  | [] => {}
  | s :: rest =>
    if s.length - hr > cols then ({ err := some 't' } : TSet V).push (s.take hr) (rowOf cell cols [])
    else (expect hr cols rest).push (s.take hr) (rowOf cell cols (s.drop hr))

/-- The number of columns: what it is, or what the first data line has. -/
def colsOf (hr : Nat) (cols : Option Nat) (recs : List (List CStr)) : Nat := cols.getD ((recs.headD []).length - hr)

/-- The record of the unterminated end of the file. -/
def tailRec (tf : List (List UInt8)) : List (List CStr) := if tf = [] then [] else [strsOf tf]

theorem strsOf_length (fs : List (List UInt8)) : (strsOf fs).length = fs.length := by simp [strsOf]

section
variable {seq : Seq} {bytes : List UInt8} (hs : Shows seq bytes) {delims : CStr} (hd : (255 : UInt8) ∉ delims)
include hs hd

omit hs hd in
theorem dataLoop_tail (hr lf f : Nat) (tf : List (List UInt8)) (fn : List Buf) (pos : Nat) (ht : takeStrs tf.length fn = .ok (strsOf tf)) (cols : Option Nat)
    (hc : cols.isSome = true ∨ tf ≠ []) (hc0 : colsOf hr cols (tailRec tf) ≠ 0) :
    dataLoop cell seq delims hr lf (f + 1) ⟨tf.length, true, fn, pos⟩ cols = .done (expect cell hr (colsOf hr cols (tailRec tf)) (tailRec tf)) := by
  rw [dataLoop]
  by_cases htf : tf = []
  · have h1 : cols.isSome = true := hc.resolve_right (by simp [htf])
    rw [if_pos ⟨h1, rfl, by simp [htf]⟩]
    simp [tailRec, htf, expect]
  · have hpos := List.length_pos_iff.2 htf
    rw [if_neg (by simp only [not_and]; intro _ _; simpa using htf), if_neg (by simpa using htf)]
    have htr : tailRec tf = [strsOf tf] := by simp [tailRec, htf]
    have hcol : colsOf hr cols (tailRec tf) = cols.getD (tf.length - hr) := by simp [colsOf, htr, strsOf_length]
    rw [hcol] at hc0 ⊢
    simp only
    rw [if_neg hc0, ht, htr]
    simp only [Run.ofRes_ok, Run.bind_done, expect, strsOf_length]
    split
    · rfl
    · rfl

theorem dataLoop_eq (hr lf : Nat) (hlf : bytes.length < lf) (tl : List UInt8) (tf : List (List UInt8)) (ht : IsTail delims tl tf) :
    ∀ (n : Nat) (ls : Lines), ls.length ≤ n → ls.Ok delims → ∀ (l : Line) (fields : List (List UInt8)) (cols : Option Nat) (x : List UInt8) (f : Nat),
      l.ct = fields.length → l.eof = false → takeStrs fields.length l.fn = .ok (strsOf fields) → l.pos ≤ bytes.length →
      bytes.drop l.pos = ls.bytes ++ tl → ls.length + 2 < f →
      (cols.isSome = true ∨ Lines.records ((x, fields) :: ls) ++ tailRec tf ≠ []) →
      colsOf hr cols (Lines.records ((x, fields) :: ls) ++ tailRec tf) ≠ 0 →
      dataLoop cell seq delims hr lf f l cols =
        .done (expect cell hr (colsOf hr cols (Lines.records ((x, fields) :: ls) ++ tailRec tf)) (Lines.records ((x, fields) :: ls) ++ tailRec tf))
  | n, ls, hn, hok, l, fields, cols, x, f + 1, h1, h2, h3, h4, h5, h6, h7, h8 => by
    -- the line after this one
    have hnext : ∀ (cols' : Option Nat) (fn : List Buf), (cols'.isSome = true ∨ ls.records ++ tailRec tf ≠ []) → colsOf hr cols' (ls.records ++ tailRec tf) ≠ 0 →
        (do let l' ← parseLine seq delims lf l.pos fn; dataLoop cell seq delims hr lf f l' cols') =
          .done (expect cell hr (colsOf hr cols' (ls.records ++ tailRec tf)) (ls.records ++ tailRec tf)) := by
      intro cols' fn hc hc0
      obtain ⟨g, rfl⟩ : ∃ g, f = g + 1 := ⟨f - 1, by omega⟩
      match n, ls, hn, hok, h5, h6, hc, hc0 with
      | _, [], _, _, h5, _, hc, hc0 =>
        simp only [Lines.bytes, List.flatMap_nil, List.nil_append] at h5
        obtain ⟨fn', pos', e1, e2, e3⟩ := parse_isTail hs hd ht h4 h5 lf hlf fn
        rw [e1]
        simp only [Run.bind_done]
        have : Lines.records [] ++ tailRec tf = tailRec tf := rfl
        rw [this] at hc hc0 ⊢
        exact dataLoop_tail cell hr lf g tf fn' pos' e3 cols' (hc.imp_right (by
          intro h; intro h0; exact h (by simp [tailRec, h0]))) hc0
      | n + 1, (b, bf) :: ls', hn, hok, h5, h6, hc, hc0 =>
        simp only [Lines.bytes, List.flatMap_cons, List.append_assoc] at h5
        obtain ⟨fn', e1, e2, e3⟩ := parse_isLine hs hd (hok (b, bf) (by simp)).2 h4 h5 lf hlf fn
        rw [e1]
        simp only [Run.bind_done]
        have hlen : b.length ≤ (bytes.drop l.pos).length := by rw [h5]; simp
        rw [List.length_drop] at hlen
        exact dataLoop_eq hr lf hlf tl tf ht n ls' (by simp at hn; omega) (fun y hy => hok y (by simp [hy])) ⟨bf.length, false, fn', l.pos + b.length⟩ bf cols' b (g + 1)
          rfl rfl e3 (by simp only; omega) (by simp only; rw [← List.drop_drop, h5, List.drop_left]; rfl) (by simp at h6; omega) hc hc0
    rw [dataLoop, if_neg (by simp [h2])]
    by_cases hf : fields = []
    · subst hf
      have hrec : Lines.records ((x, []) :: ls) = ls.records := by simp [Lines.records]
      rw [hrec] at h7 h8 ⊢
      rw [if_pos (by simpa using h1)]
      exact hnext cols l.fn h7 h8
    · have hpos := List.length_pos_iff.2 hf
      have hrec : Lines.records ((x, fields) :: ls) = strsOf fields :: ls.records := records_cons ls hf
      rw [hrec] at h7 h8 ⊢
      have hcol : colsOf hr cols (strsOf fields :: ls.records ++ tailRec tf) = cols.getD (fields.length - hr) := by simp [colsOf, strsOf_length]
      rw [hcol] at h8 ⊢
      rw [if_neg (by omega), h1, if_neg h8, h3]
      simp only [Run.ofRes_ok, Run.bind_done, List.cons_append, expect, strsOf_length]
      split
      · rfl
      · rw [h2]
        simp only [Bool.false_eq_true, if_false]
        have := hnext (some (cols.getD (fields.length - hr))) l.fn (Or.inl rfl) (by simpa [colsOf] using h8)
        simp only [colsOf, Option.getD_some] at this
        rw [Run.bind_eq_done] at this
        obtain ⟨l', e1, e2⟩ := this
        rw [e1]
        simp only [Run.bind_done]
        rw [e2]
        rfl

end

/-- **C45, without column names.** For any file (no byte 255) with a line of data, whether or not its last line ends in a newline: the columns are the fields of the first
data line, and each line that is not blank makes a row, up to one that is too long. -/
theorem textToData_nohead {bs : Nat} (hbs : 0 < bs) {delims : CStr} (hd : (255 : UInt8) ∉ delims) (hr : Nat) (ls : Lines) (hls : ls.Ok delims) (tl : List UInt8)
    (tf : List (List UInt8)) (ht : IsTail delims tl tf) (h255 : (255 : UInt8) ∉ ls.bytes ++ tl)
    (hne : ls.records ++ tailRec tf ≠ []) (hc0 : colsOf hr none (ls.records ++ tailRec tf) ≠ 0) (fuel : Nat) (hf : (ls.bytes ++ tl).length + ls.length + 2 < fuel) :
    textToData cell (fileSeq bs (ls.bytes ++ tl)) delims fuel hr false =
      .done (expect cell hr (colsOf hr none (ls.records ++ tailRec tf)) (ls.records ++ tailRec tf)) := by
  unfold textToData
  simp only [Bool.false_eq_true, if_false]
  have hrec : Lines.records (([], []) :: ls) = ls.records := by simp [Lines.records]
  have := dataLoop_eq cell (shows_file' hbs h255) hd hr fuel (by omega) tl tf ht ls.length ls (Nat.le_refl _) hls ⟨0, false, [], 0⟩ [] none [] fuel rfl rfl rfl
    (by simp) (by simp) (by omega)
  rw [hrec] at this
  exact this (Or.inr hne) hc0

/-- **C45, with column names.** -/
theorem textToData_head {bs : Nat} (hbs : 0 < bs) {delims : CStr} (hd : (255 : UInt8) ∉ delims) (hr : Nat) {hbl : Lines} {hln : List UInt8} {names : List (List UInt8)}
    (hh : Head delims hbl hln names) {bl : Lines} {ln : List UInt8} {fields : List (List UInt8)} (h : Head delims bl ln fields) (ls : Lines) (hls : ls.Ok delims)
    (tl : List UInt8) (tf : List (List UInt8)) (ht : IsTail delims tl tf) (file : List UInt8)
    (hfile : file = hbl.bytes ++ (hln ++ (bl.bytes ++ (ln ++ (ls.bytes ++ tl))))) (h255 : (255 : UInt8) ∉ file)
    (hn : fields.length - hr ≤ names.length) (hc0 : fields.length - hr ≠ 0) (fuel : Nat) (hf : file.length + hbl.length + bl.length + ls.length + 2 < fuel) :
    textToData cell (fileSeq bs file) delims fuel hr true =
      .done { expect cell hr (fields.length - hr) (strsOf fields :: ls.records ++ tailRec tf) with colnames := (strsOf names).take (fields.length - hr) } := by
  have hs : Shows (fileSeq bs file) file := shows_file' hbs h255
  unfold textToData
  simp only [if_true]
  obtain ⟨m, m1, m2, m3, m4⟩ := firstLine_eq hs hd fuel (by omega) hbl hh.ok hh.blank hln names hh.line hh.ne (bl.bytes ++ (ln ++ (ls.bytes ++ tl))) 0 fuel
    (by omega) (by simpa using hfile) (by omega)
  rw [m1]
  simp only [Run.bind_done]
  have hdrop : file.drop m.pos = bl.bytes ++ (ln ++ (ls.bytes ++ tl)) := by
    rw [m2, Nat.zero_add]
    have : file.drop (hbl.bytes.length + hln.length) = (file.drop hbl.bytes.length).drop hln.length := by rw [List.drop_drop]
    rw [this, hfile, List.drop_left, List.drop_left]
  have hmp : m.pos + bl.bytes.length + ln.length ≤ file.length := by rw [m2, hfile]; simp; omega
  obtain ⟨l, l1, l2, l3, l4⟩ := firstLine_eq hs hd fuel (by omega) bl h.ok h.blank ln fields h.line h.ne (ls.bytes ++ tl) m.pos fuel
    (by omega) hdrop (by omega)
  rw [l1]
  simp only [Run.bind_done]
  have htake : ∀ (k : Nat) (n : Nat) (fn : List Buf) (ss : List CStr), k ≤ n → takeStrs n fn = .ok ss → takeStrs k fn = .ok (ss.take k) := by
    intro k
    induction k with
    | zero => intro n fn ss _ _; cases fn <;> simp [takeStrs]
    | succ k ih =>
      intro n fn ss hk hss
      obtain ⟨n, rfl⟩ : ∃ n', n = n' + 1 := ⟨n - 1, by omega⟩
      cases fn with
      | nil => simp [takeStrs] at hss
      | cons b fn =>
        simp only [takeStrs] at hss ⊢
        cases hb : bufStr b with
        | ub => rw [hb] at hss; simp at hss
        | ok s =>
          rw [hb] at hss
          simp only [Res.bind_ok] at hss ⊢
          cases hr : takeStrs n fn with
          | ub => rw [hr] at hss; simp at hss
          | ok r =>
            rw [hr] at hss
            simp only [Res.bind_ok, Res.ok.injEq] at hss
            rw [ih n fn r (by omega) hr, ← hss]
            rfl
  rw [l3, htake (fields.length - hr) names.length m.fn (strsOf names) hn m4]
  simp only [Run.ofRes_ok, Run.bind_done]
  have := dataLoop_eq cell hs hd hr fuel (by omega) tl tf ht ls.length ls (Nat.le_refl _) hls ⟨fields.length, false, l.fn, l.pos⟩ fields (some (fields.length - hr)) ln fuel rfl rfl l4
    (by simp only [l2]; omega) (by
      simp only [l2]
      have : file.drop (m.pos + bl.bytes.length + ln.length) = ((file.drop m.pos).drop bl.bytes.length).drop ln.length := by
        rw [List.drop_drop, List.drop_drop, Nat.add_assoc]
      rw [this, hdrop, List.drop_left, List.drop_left]) (by omega) (Or.inl rfl) (by simpa [colsOf] using hc0)
  rw [this]
  have hrc : Lines.records ((ln, fields) :: ls) = strsOf fields :: ls.records := records_cons ls h.ne
  simp only [Run.bind_done, colsOf, Option.getD_some, hrc]

/-! ## The theorems -/

theorem expect_even (hr cols : Nat) : ∀ (recs : List (List CStr)), (∀ s ∈ recs, s.length = cols + hr) →
    expect cell hr cols recs = { rownames := recs.flatMap (·.take hr), rows := recs.map (fun s => (s.drop hr).map (fun x => some (cell x))) }
  | [], _ => rfl
  | s :: recs, h => by
    have hl := h s (by simp)
    rw [expect, if_neg (by omega), expect_even hr cols recs (fun x hx => h x (by simp [hx]))]
    have : rowOf cell cols (s.drop hr) = (s.drop hr).map (fun x => some (cell x)) := by
      rw [rowOf, List.length_drop, show cols - (s.length - hr) = 0 by omega]
      simp
    rw [this]
    rfl

/-- **C45 (files with column names whose lines are all of one length).** The column names are the header's; each line after it that is not blank, the last one with or without a newline,
is one row of the matrix, in order; every cell is written, from the string in its place; the row names, if there are any, are the first fields; there is no error.
Outside of this: shorter lines (`C45_short_line_unwritten`), longer ones (`C45_long_line_extra_row`), and a file whose only data line has no newline (`C45_only_line_unterminated_ub`). -/
theorem C45_matrix {bs : Nat} (hbs : 0 < bs) {delims : CStr} (hd : (255 : UInt8) ∉ delims) (hr : Nat) {hbl : Lines} {hln : List UInt8} {names : List (List UInt8)}
    (hh : Head delims hbl hln names) {bl : Lines} {ln : List UInt8} {fields : List (List UInt8)} (h : Head delims bl ln fields) (ls : Lines) (hls : ls.Ok delims)
    (tl : List UInt8) (tf : List (List UInt8)) (ht : IsTail delims tl tf) (file : List UInt8)
    (hfile : file = hbl.bytes ++ (hln ++ (bl.bytes ++ (ln ++ (ls.bytes ++ tl))))) (h255 : (255 : UInt8) ∉ file)
    (hn : fields.length = names.length + hr) (hc0 : names ≠ []) (heven : ∀ s ∈ ls.records ++ tailRec tf, s.length = fields.length)
    (fuel : Nat) (hf : file.length + hbl.length + bl.length + ls.length + 2 < fuel) :
    textToData cell (fileSeq bs file) delims fuel hr true =
      .done { colnames := strsOf names,
              rownames := (strsOf fields :: ls.records ++ tailRec tf).flatMap (·.take hr),
              rows := (strsOf fields :: ls.records ++ tailRec tf).map (fun s => (s.drop hr).map (fun x => some (cell x))) } := by
  have hpos := List.length_pos_iff.2 hc0
  rw [textToData_head cell hbs hd hr hh h ls hls tl tf ht file hfile h255 (by omega) (by omega) fuel hf,
    show fields.length - hr = names.length by omega,
    expect_even cell hr names.length (strsOf fields :: ls.records ++ tailRec tf) (by
      intro s hs
      simp only [List.cons_append, List.mem_cons] at hs
      rcases hs with rfl | hs
      · rw [strsOf_length]; exact hn
      · rw [heven s hs]; exact hn)]
  simp only
  rw [List.take_of_length_le (by rw [strsOf_length]; exact Nat.le_refl _)]

/-- **C45 without column names**, and without row names. -/
theorem C45_matrix_nohead {bs : Nat} (hbs : 0 < bs) {delims : CStr} (hd : (255 : UInt8) ∉ delims) (ls : Lines) (hls : ls.Ok delims) (tl : List UInt8)
    (tf : List (List UInt8)) (ht : IsTail delims tl tf) (h255 : (255 : UInt8) ∉ ls.bytes ++ tl) (n : Nat) (hn : n ≠ 0)
    (hne : ls.records ++ tailRec tf ≠ []) (heven : ∀ s ∈ ls.records ++ tailRec tf, s.length = n) (fuel : Nat) (hf : (ls.bytes ++ tl).length + ls.length + 2 < fuel) :
    textToData cell (fileSeq bs (ls.bytes ++ tl)) delims fuel 0 false =
      .done { rows := (ls.records ++ tailRec tf).map (fun s => s.map (fun x => some (cell x))) } := by
  have hcols : colsOf 0 none (ls.records ++ tailRec tf) = n := by
    generalize ls.records ++ tailRec tf = recs at *
    cases recs with
    | nil => exact absurd rfl hne
    | cons s r => simp [colsOf, heven s (by simp)]
  rw [textToData_nohead cell hbs hd 0 ls hls tl tf ht h255 hne (by rw [hcols]; exact hn) fuel hf, hcols,
    expect_even cell 0 n _ (by simpa using heven)]
  simp

/-- The hypotheses can be met: `a,b`, `a,b` and, unterminated, `c,d`. -/
example : textToData (V := CStr) id (fileSeq 100000 ([97, 44, 98, 10, 97, 44, 98, 10] ++ str "c,d")) comma 30 0 true =
    .done { colnames := [[97], [98]], rows := [[some [97], some [98]], [some (str "c"), some (str "d")]] } := by
  have h := C45_matrix (V := CStr) id (bs := 100000) (by decide) (delims := comma) (by decide) 0 (hbl := []) (hln := [97, 44, 98, 10]) (names := [[97], [98]])
    ⟨by simp [Lines.Ok], by simp, ab_isLine, by simp⟩ (bl := []) (ln := [97, 44, 98, 10]) (fields := [[97], [98]])
    ⟨by simp [Lines.Ok], by simp, ab_isLine, by simp⟩ [] (by simp [Lines.Ok]) _ _ cd_isTail ([97, 44, 98, 10, 97, 44, 98, 10] ++ str "c,d") rfl
    (by decide +kernel) rfl (by simp) (by decide +kernel) 30 (by decide +kernel)
  rw [h]
  decide +kernel

/-- **A line with fewer fields than the first leaves cells that were never written**: the rest of its row is whatever the memory held, with no error. -/
theorem C45_short_line_unwritten {bs : Nat} (hbs : 0 < bs) {delims : CStr} (hd : (255 : UInt8) ∉ delims) (ln : List UInt8) (a b : List UInt8)
    (h1 : IsLine delims ln [a, b]) (ln2 : List UInt8) (c : List UInt8) (h2 : IsLine delims ln2 [c]) (hne1 : ln ≠ []) (hne2 : ln2 ≠ [])
    (h255 : (255 : UInt8) ∉ ln ++ ln2) (fuel : Nat) (hf : (ln ++ ln2).length + 4 < fuel) :
    ∃ t, textToData cell (fileSeq bs (ln ++ ln2)) delims fuel 0 false = .done t ∧ t.err = none ∧ t.rows[1]? = some [some (cell (c.takeWhile (· != 0))), none] := by
  have hls : Lines.Ok delims [(ln, [a, b]), (ln2, [c])] := by
    intro x hx
    simp only [List.mem_cons, List.not_mem_nil, or_false] at hx
    rcases hx with rfl | rfl
    · exact ⟨hne1, h1⟩
    · exact ⟨hne2, h2⟩
  have hb : Lines.bytes [(ln, [a, b]), (ln2, [c])] ++ [] = ln ++ ln2 := by simp [Lines.bytes]
  have hrec : Lines.records [(ln, [a, b]), (ln2, [c])] ++ tailRec [] = [strsOf [a, b], strsOf [c]] := by simp [Lines.records, tailRec]
  have := textToData_nohead cell hbs hd 0 [(ln, [a, b]), (ln2, [c])] hls [] [] (nil_isTail _) (by rw [hb]; exact h255) (by rw [hrec]; simp)
    (by rw [hrec]; simp [colsOf, strsOf]) fuel (by rw [hb]; simp only [List.length_cons, List.length_nil]; omega)
  rw [hb, hrec] at this
  refine ⟨_, this, ?_, ?_⟩
  · simp [colsOf, expect, strsOf, TSet.push]
  · simp [colsOf, expect, strsOf, TSet.push, rowOf]

/-- **A line with more fields than the first**: the error is 't', as documented, but "what I have so far" has one more row, with no cell written. -/
theorem C45_long_line_extra_row {bs : Nat} (hbs : 0 < bs) {delims : CStr} (hd : (255 : UInt8) ∉ delims) (ln : List UInt8) (a : List UInt8)
    (h1 : IsLine delims ln [a]) (ln2 : List UInt8) (b c : List UInt8) (h2 : IsLine delims ln2 [b, c]) (hne1 : ln ≠ []) (hne2 : ln2 ≠ [])
    (h255 : (255 : UInt8) ∉ ln ++ ln2) (fuel : Nat) (hf : (ln ++ ln2).length + 4 < fuel) :
    textToData cell (fileSeq bs (ln ++ ln2)) delims fuel 0 false =
      .done { rows := [[some (cell (a.takeWhile (· != 0)))], [none]], err := some 't' } := by
  have hls : Lines.Ok delims [(ln, [a]), (ln2, [b, c])] := by
    intro x hx
    simp only [List.mem_cons, List.not_mem_nil, or_false] at hx
    rcases hx with rfl | rfl
    · exact ⟨hne1, h1⟩
    · exact ⟨hne2, h2⟩
  have hb : Lines.bytes [(ln, [a]), (ln2, [b, c])] ++ [] = ln ++ ln2 := by simp [Lines.bytes]
  have hrec : Lines.records [(ln, [a]), (ln2, [b, c])] ++ tailRec [] = [strsOf [a], strsOf [b, c]] := by simp [Lines.records, tailRec]
  have := textToData_nohead cell hbs hd 0 [(ln, [a]), (ln2, [b, c])] hls [] [] (nil_isTail _) (by rw [hb]; exact h255) (by rw [hrec]; simp)
    (by rw [hrec]; simp [colsOf, strsOf]) fuel (by rw [hb]; simp only [List.length_cons, List.length_nil]; omega)
  rw [hb, hrec] at this
  rw [this]
  simp [colsOf, expect, strsOf, TSet.push, rowOf]

/-- **A header with fewer names than the first data line has fields**: names are read past the end of the list. -/
theorem C45_few_names_ub {bs : Nat} (hbs : 0 < bs) {delims : CStr} (hd : (255 : UInt8) ∉ delims) {hln : List UInt8} {names : List (List UInt8)}
    (hh : Head delims [] hln names) {ln : List UInt8} {fields : List (List UInt8)} (h : Head delims [] ln fields) (rest : List UInt8) (file : List UInt8)
    (hfile : file = hln ++ (ln ++ rest)) (h255 : (255 : UInt8) ∉ file) (hn : names.length < fields.length) (fuel : Nat) (hf : file.length + 2 < fuel) :
    textToData cell (fileSeq bs file) delims fuel 0 true = .ub := by
  have hs : Shows (fileSeq bs file) file := shows_file' hbs h255
  obtain ⟨m, m1, m2, m3, m4⟩ := firstLine_eq hs hd fuel (by omega) [] hh.ok hh.blank hln names hh.line hh.ne (ln ++ rest) 0 fuel
    (by omega) (by simpa [Lines.bytes] using hfile) (by simp; omega)
  simp only [Lines.bytes, List.flatMap_nil, List.length_nil, Nat.add_zero, Nat.zero_add] at m2
  obtain ⟨l, l1, l2, l3, l4⟩ := firstLine_eq hs hd fuel (by omega) [] h.ok h.blank ln fields h.line h.ne rest m.pos fuel
    (by rw [m2, hfile]; simp) (by rw [m2, hfile, List.drop_left]; rfl) (by simp; omega)
  unfold textToData
  simp only [if_true, m1, l1, Run.bind_done, l3, Nat.sub_zero]
  have hub : ∀ (n : Nat) (fn : List Buf), fn.length < n → takeStrs n fn = .ub := by
    intro n
    induction n with
    | zero => intro fn h; omega
    | succ n ih =>
      intro fn hlt
      cases fn with
      | nil => rfl
      | cons b fn =>
        rw [takeStrs, ih fn (by simp at hlt; omega)]
        cases bufStr b <;> rfl
  rw [hub _ _ (by rw [m3]; exact hn)]
  rfl

/-- **A header and one data line without a newline**: the end of the file seen while reading that line is forgotten, and the next line is read after it. -/
theorem C45_only_line_unterminated_ub (bs : Nat) {delims : CStr} (hd : (255 : UInt8) ∉ delims) {hln : List UInt8} {names : List (List UInt8)}
    (hh : Head delims [] hln names) (tl : List UInt8) (tf : List (List UInt8)) (ht : IsTail delims tl tf) (hne : tf ≠ []) (file : List UInt8)
    (hfile : file = hln ++ tl) (h255 : (255 : UInt8) ∉ file) (hlen : file.length + 1 < bs) (fuel : Nat) (hf : file.length + 2 < fuel) :
    textToData cell (fileSeq bs file) delims fuel 0 true = .ub := by
  have hs : Shows (fileSeq bs file) file := shows_file' (by omega) h255
  have hub := C32_after_end_ub bs file hlen
  obtain ⟨m, m1, m2, m3, m4⟩ := firstLine_eq hs hd fuel (by omega) [] hh.ok hh.blank hln names hh.line hh.ne tl 0 fuel
    (by omega) (by simpa [Lines.bytes] using hfile) (by simp; omega)
  simp only [Lines.bytes, List.flatMap_nil, List.length_nil, Nat.add_zero, Nat.zero_add] at m2
  obtain ⟨fn', h1, h2, h3⟩ := parse_eq hs hd fuel m.pos (by rw [m2, hfile]; simp) (by omega) []
  have hdrop : file.drop m.pos = tl := by rw [m2, hfile, List.drop_left]
  have hlo := ht m.pos
  have hpos := absLine_eof_pos delims tl .plain {} m.pos hlo.2
  have e1 : (lineOf delims file m.pos).1.fields = tf := by rw [lineOf, hdrop]; exact hlo.1
  have e2 : (lineOf delims file m.pos).2.2 = file.length + 1 := by
    rw [lineOf, hdrop, hpos, m2, hfile]; simp
  rw [e1, e2] at h1
  rw [e1] at h2 h3
  simp only [List.length_nil, Nat.zero_max] at h2
  have hp := List.length_pos_iff.2 hne
  have hfn : fn' ≠ [] := by
    intro h; subst h; simp at h2; omega
  obtain ⟨f, rfl⟩ : ∃ f, fuel = f + 1 := ⟨fuel - 1, by omega⟩
  have hl1 : firstLine (fileSeq bs file) delims (f + 1) (f + 1) m.pos = .done ⟨tf.length, (lineOf delims file m.pos).2.1, fn', file.length + 1⟩ := by
    rw [firstLine, h1]
    simp only [Run.bind_done]
    rw [if_neg hfn]
  unfold textToData
  simp only [if_true, m1, Run.bind_done, hl1, Nat.sub_zero]
  cases hts : takeStrs fn'.length m.fn with
  | ub => rfl
  | ok ns =>
    simp only [Run.ofRes_ok, Run.bind_done]
    rw [dataLoop]
    simp only [h2, h3, Bool.false_eq_true, false_and, and_false, if_false, Option.getD_some, Nat.sub_zero, Run.ofRes_ok, Run.bind_done]
    rw [if_neg (by omega), if_neg (by omega), if_neg (by omega), parse_ub hub]
    rfl

end Apop.Parse
