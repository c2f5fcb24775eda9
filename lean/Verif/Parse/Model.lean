import Verif.Base.C

/-! # Reading text files (apop_conversions.m4.c:414-673, 990-1202) -/

namespace Apop.Parse

/-! ## The byte stream -/

/-- The reading buffer of `bs` bytes (`none`: never written), the read position in it, and what is left of the file. -/
structure Src where
  buf : List (Option UInt8)
  ptr : Nat
  rest : List UInt8

/-- At the start: `char buffer[bs]; size_t ptr=bs;`, apop_conversions.m4.c:612-613 and 1138-1139. -/
def Src.start (bs : Nat) (file : List UInt8) : Src := ⟨List.replicate bs none, bs, file⟩

/-- The refill, apop_conversions.m4.c:476-480: `fread`, and the end mark `(char)-1` if the file gave less than a full
buffer. (A read that fails or is cut short before the end of the file is not modelled.) -/
def Src.fill (bs : Nat) (s : Src) : Src :=
  if s.ptr ≥ bs then
    let chunk := s.rest.take bs
    ⟨chunk.map some ++ (if chunk.length < bs then [some 255] ++ s.buf.drop (chunk.length + 1) else []), 0, s.rest.drop bs⟩
  else s

/-- `get_next`, apop_conversions.m4.c:473-483: the next byte, `none` for EOF. -/
def Src.next (bs : Nat) (s : Src) : Res (Option UInt8 × Src) := do
  let s := s.fill bs
  let c ← rd s.buf s.ptr
  match c with
  | none => .ub
  | some c => .ok (if c = 255 then none else some c, { s with ptr := s.ptr + 1 })

/-- The result of the `k`-th call of `get_next` (counting from 0). The reader is not affected by what is done with the
bytes. -/
def Src.nth (bs : Nat) : Nat → Src → Res (Option UInt8)
  | 0, s => do
    let (c, _) ← s.next bs
    .ok c
  | k + 1, s => do
    let (_, s) ← s.next bs
    Src.nth bs k s

/-- What the parser sees: the results of successive calls of `get_next`. -/
abbrev Seq := Nat → Res (Option UInt8)

/-- The sequence of a file. -/
def fileSeq (bs : Nat) (file : List UInt8) : Seq := fun k => (Src.start bs file).nth bs k

/-! ## Character types -/

/-- The `type` of `apop_char_info`: 'W', 'w', 'd', 'n', '"', '\\', 'E', '#', 'r'. -/
inductive Ty where
  | WD | ws | delim | nl | quote | bslash | eof | hash | reg
  deriving DecidableEq, Repr

/-- `strchr(delimiters, c)`: the terminating NUL is found too; EOF is converted to the byte 255. -/
def isDelim (delims : CStr) (c : UInt8) : Bool := delims.contains c || c == 0

/-- The types, apop_conversions.m4.c:485-498. -/
def classify (delims : CStr) (o : Option UInt8) : Ty :=
  match o with
  | some c =>
    if c = 32 ∨ c = 13 ∨ c = 9 ∨ c = 0 then (if isDelim delims c then .WD else .ws)
    else if isDelim delims c then .delim
    else if c = 10 then .nl
    else if c = 34 then .quote
    else if c = 92 then .bslash
    else if c = 35 then .hash
    else .reg
  | none => if isDelim delims 255 then .delim else .eof

/-- `.c=c`: the byte, 255 for EOF. -/
def theChar (o : Option UInt8) : UInt8 := o.getD 255

/-- `for (c='x'; c!='\n' && c!=EOF;) c = get_next(..)`, apop_conversions.m4.c:512-513: the position after it. -/
def skipComment (seq : Seq) : Nat → Nat → Run Nat
  | 0, _ => .more
  | f + 1, pos =>
    match seq pos with
    | .ub => .ub
    | .ok c => if c = some 10 ∨ c = none then .done (pos + 1) else skipComment seq f (pos + 1)

/-- The character, with comments and backslashes dealt with, apop_conversions.m4.c:509-523. -/
def readTok (seq : Seq) (delims : CStr) (fuel : Nat) (inqq : Bool) (pos : Nat) : Run (Ty × UInt8 × Nat) := do
  let c ← Run.ofRes (seq pos)
  if classify delims c = .hash ∧ inqq = false then do
    let pos ← skipComment seq fuel (pos + 1)
    .done (.nl, theChar c, pos)
  else if classify delims c = .bslash then do
    let c ← Run.ofRes (seq (pos + 1))
    .done (if classify delims c = .eof then .eof else .reg, theChar c, pos + 2)
  else .done (classify delims c, theChar c, pos + 1)

/-- Lines 524-525: in quotes everything but a quote or the end is plain. -/
def requote (inqq : Bool) (ty : Ty) : Ty := if inqq = true ∧ ty ≠ .quote ∧ ty ≠ .eof then .reg else ty

/-- Line 526: a quote switches. -/
def switchq (inqq : Bool) (ty : Ty) : Bool := if ty = .quote then !inqq else inqq

/-! ## Delimited lines -/

/-- The memory of one field's string: the shared blank string or a block (`none` bytes were never written). -/
abbrev Buf := Option (List (Option UInt8))

/-- `Textrealloc`, apop_conversions.m4.c:426-429, to a positive length. -/
def reallocBuf (b : Buf) (n : Nat) : Buf :=
  match b with
  | none => some (List.replicate n none)
  | some l => some (l.take n ++ List.replicate (n - l.length) none)

/-- Write a byte of a field's string. Writing to the shared blank string is undefined. -/
def writeBuf (b : Buf) (i : Nat) (c : UInt8) : Res Buf :=
  match b with
  | none => .ub
  | some l => do
    let l ← wr l i (some c)
    .ok (some l)

/-- Apply `f` to the string of field `i`. -/
def onField (fn : List Buf) (i : Nat) (f : Buf → Res Buf) : Res (List Buf) := do
  let b ← rd fn i
  let b ← f b
  wr fn i b

/-- The variables of `parse_a_line`, apop_conversions.m4.c:504-505, and the fields of `fn` (its text has one column;
`apop_text_alloc(fn, ct, 1)` adds a blank row: see C09). -/
structure St where
  fn : List Buf
  ct : Nat := 0
  thisflen : Nat := 0
  inqq : Bool := false
  infield : Bool := false
  mlen : Nat := 5
  lastwhite : Bool := false
  lastnonwhite : Nat := 0
  deriving DecidableEq

/-- Start a new field, apop_conversions.m4.c:536-540. -/
def startField (s : St) : Res St := do
  let fn := if s.ct + 1 > s.fn.length then s.fn ++ [none] else s.fn
  let fn ← onField fn s.ct (fun b => .ok (reallocBuf b 5))
  .ok { s with fn := fn, ct := s.ct + 1, thisflen := 0, mlen := 5, infield := true }

/-- Close the field, apop_conversions.m4.c:544-549. -/
def closeField (s : St) : Res St := do
  let fn ← onField s.fn (s.ct - 1) (fun b => writeBuf b s.lastnonwhite 0)
  .ok { s with fn := fn, infield := false, thisflen := 0, lastnonwhite := 0 }

/-- Extend the field, apop_conversions.m4.c:550-559. -/
def extendField (s : St) (ty : Ty) (c : UInt8) : Res St := do
  let len := s.thisflen + 1
  let mlen := if len + 2 > s.mlen then s.mlen * 2 else s.mlen
  let fn ← (if len + 2 > s.mlen then onField s.fn (s.ct - 1) (fun b => .ok (reallocBuf b mlen)) else .ok s.fn : Res (List Buf))
  let fn ← onField fn (s.ct - 1) (fun b => writeBuf b (len - 1) c)
  .ok { s with fn := fn, thisflen := len, mlen := mlen, lastnonwhite := if ty = .ws then s.lastnonwhite else len }

/-- Does this character start a field, apop_conversions.m4.c:534-535? -/
def starts (s : St) (ty : Ty) : Bool :=
  ty = .reg || ty = .delim || ((ty = .nl || ty = .eof) && decide (0 < s.ct))

/-- The part of the loop on lines 543-560. -/
def inField (s : St) (ty : Ty) (c : UInt8) : Res St :=
  if s.infield then
    if ty = .delim ∨ ty = .nl ∨ ty = .eof ∨ ty = .WD then closeField s
    else if ty = .ws ∨ ty = .reg then extendField s ty c
    else .ok s
  else .ok s

/-- The body of the loop after the character is known, apop_conversions.m4.c:528-560. -/
def act (s : St) (ty : Ty) (c : UInt8) : Res St :=
  if ty = .WD ∧ s.lastwhite = true then .ok s
  else
    let s := { s with lastwhite := decide (ty = .WD) }
    if s.infield = false ∧ ty = .ws then .ok s
    else if s.infield = false ∧ starts s ty = true then do
      let s ← startField s
      inField s ty c
    else inField s ty c

/-- The loop of `parse_a_line`, apop_conversions.m4.c:508-561. -/
def lineLoop (seq : Seq) (delims : CStr) : Nat → Nat → St → Run (St × Bool × Nat)
  | 0, _, _ => .more
  | f + 1, pos, s => do
    let (ty, c, pos) ← readTok seq delims f s.inqq pos
    let ty' := requote s.inqq ty
    let s ← Run.ofRes (act { s with inqq := switchq s.inqq ty } ty' c)
    if ty' = .nl ∨ ty' = .eof then .done (s, decide (ty' = .eof), pos)
    else lineLoop seq delims f pos s

/-- `line_parse_t` and the state after a line. -/
structure Line where
  ct : Nat
  eof : Bool
  fn : List Buf
  pos : Nat
  deriving DecidableEq

/-- `parse_a_line` without field ends, apop_conversions.m4.c:503-563: `fn` has what earlier lines left there. -/
def parseLine (seq : Seq) (delims : CStr) (fuel : Nat) (pos : Nat) (fn : List Buf) : Run Line := do
  let (s, eof, pos) ← lineLoop seq delims fuel pos { fn := fn }
  .done ⟨s.ct, eof, s.fn, pos⟩

/-- The C string in a block: the bytes before the first NUL; undefined if there is none, or an unwritten byte before it. -/
def cstrOf : List (Option UInt8) → Res CStr
  | [] => .ub
  | none :: _ => .ub
  | some c :: l => if c = 0 then .ok [] else do
    let r ← cstrOf l
    .ok (c :: r)

/-- The string of a field. -/
def bufStr : Buf → Res CStr
  | none => .ok []
  | some l => cstrOf l

/-! ## Fixed width lines -/

/-- The variables of `parse_a_fixed_line`, apop_conversions.m4.c:436. -/
structure FSt where
  fn : List Buf
  ct : Nat := 0
  posn : Nat := 0
  thisflen : Nat := 0
  needfield : Bool := true
  ends : List Nat
  deriving DecidableEq

/-- One character, apop_conversions.m4.c:438-457. `ends` is the rest of the array; reading `*field_ends` when nothing is
left of it is undefined. -/
def fixedStep (s : FSt) (c : UInt8) : Res FSt := do
  let posn := s.posn + 1
  let ct := if s.needfield then s.ct + 1 else s.ct
  let fn := if s.needfield ∧ ct > s.fn.length then s.fn ++ [none] else s.fn
  let len := (if s.needfield then 0 else s.thisflen) + 1
  let fn ← onField fn (ct - 1) (fun b => writeBuf (reallocBuf b len) (len - 1) c)
  match s.ends with
  | [] => .ub
  | e :: ends =>
    if posn = e then do
      let fn ← onField fn (ct - 1) (fun b => writeBuf (reallocBuf b (len + 1)) len 0)
      .ok ⟨fn, ct, posn, 0, true, ends⟩
    else .ok ⟨fn, ct, posn, len, false, e :: ends⟩

/-- The end of the line, apop_conversions.m4.c:460-463. -/
def fixedEnd (s : FSt) : Res FSt :=
  if s.needfield then .ok s
  else do
    let fn ← onField s.fn (s.ct - 1) (fun b => writeBuf (reallocBuf b (s.thisflen + 1)) s.thisflen 0)
    .ok { s with fn := fn }

/-- `parse_a_fixed_line`, apop_conversions.m4.c:434-465, on what is left of the file (`fgetc` gives EOF at its end, again
and again): count, end of file?, fields, rest of the file. -/
def fixedLoop : List UInt8 → FSt → Res (FSt × Bool × List UInt8)
  | [], s => do
    let s ← fixedEnd s
    .ok (s, true, [])
  | c :: rest, s =>
    if c = 10 then do
      let s ← fixedEnd s
      .ok (s, false, rest)
    else do
      let s ← fixedStep s c
      fixedLoop rest s

/-! ## Whole files -/

/-- `while (x->textsize[0]==0) parse_a_line(.., x, ..)`, apop_conversions.m4.c:569-573. -/
def firstLine (seq : Seq) (delims : CStr) (lineFuel : Nat) : Nat → Nat → Run Line
  | 0, _ => .more
  | f + 1, pos => do
    let l ← parseLine seq delims lineFuel pos []
    if l.fn = [] then firstLine seq delims lineFuel f l.pos else .done l

/-- The strings of the first `ct` fields. -/
def takeStrs : Nat → List Buf → Res (List CStr)
  | 0, _ => .ok []
  | n + 1, fn => match fn with
    | [] => .ub
    | b :: fn => do
      let s ← bufStr b
      let r ← takeStrs n fn
      .ok (s :: r)

/-- `do {L = parse_a_line(..); rows++;} while (!L.ct && !L.eof)`, apop_conversions.m4.c:1189-1192. -/
def nextData (seq : Seq) (delims : CStr) (lineFuel : Nat) : Nat → Nat → List Buf → Nat → Run (Line × Nat)
  | 0, _, _, _ => .more
  | f + 1, pos, fn, rows => do
    let l ← parseLine seq delims lineFuel pos fn
    if l.ct = 0 ∧ l.eof = false then nextData seq delims lineFuel f l.pos l.fn (rows + 1)
    else .done (l, rows + 1)

/-- `while (L.ct && !L.eof)`, apop_conversions.m4.c:1176-1193: the records inserted, and `rows`. -/
def dbLoop (seq : Seq) (delims : CStr) (lineFuel : Nat) : Nat → Line → Nat → Run (List (List CStr) × Nat)
  | 0, _, _ => .more
  | f + 1, l, rows =>
    if l.ct = 0 ∨ l.eof = true then .done ([], rows)
    else do
      let rec1 ← Run.ofRes (takeStrs l.ct l.fn)
      let (l', rows) ← nextData seq delims lineFuel f l.pos l.fn rows
      let (recs, rows) ← dbLoop seq delims lineFuel f l' rows
      .done (rec1 :: recs, rows)

/-- The reading part of `apop_text_to_db` (delimited, prepared statements, all inserts succeed),
apop_conversions.m4.c:1155-1202: the header fields, if one is read from the file, the records inserted and the return
value. `L.ct` is the number of text rows of the first line and `L.eof` is still 0 (lines 1142, 1160). -/
def textToDb (seq : Seq) (delims : CStr) (fuel : Nat) (header : Bool) : Run (List CStr × List (List CStr) × Nat) := do
  let (names, pos) ← (if header then do
      let l ← firstLine seq delims fuel fuel 0
      let names ← Run.ofRes (takeStrs l.fn.length l.fn)
      .done (names, l.pos)
    else .done ([], 0) : Run (List CStr × Nat))
  let l ← firstLine seq delims fuel fuel pos
  let (recs, rows) ← dbLoop seq delims fuel fuel { l with ct := l.fn.length, eof := false } 1
  .done (names, recs, rows)

/-- The set `apop_text_to_data` makes: names, the number of columns, the rows of the matrix (`none`: a cell never written) and the error flag. -/
structure TSet (V : Type) where
  colnames : List CStr := []
  rownames : List CStr := []
  rows : List (List (Option V)) := []
  err : Option Char := none
  deriving DecidableEq

/-- The row for these strings, apop_conversions.m4.c:643, 655-666: `apop_matrix_realloc` adds a row of unwritten cells (see C07), and a
cell is written for each string; `cell` is `strtod`, or NaN for an empty string or one that is not a number (not modelled further). -/
def rowOf {V : Type} (cell : CStr → V) (cols : Nat) (strs : List CStr) : List (Option V) :=
  strs.map (fun s => some (cell s)) ++ List.replicate (cols - strs.length) none

/-- `set` with a row in front. -/
def TSet.push {V : Type} (t : TSet V) (name : List CStr) (row : List (Option V)) : TSet V :=
  { t with rownames := name ++ t.rownames, rows := row :: t.rows }

/-- The body of `apop_text_to_data`, apop_conversions.m4.c:635-669. `hr` is `hasrows` (0 or 1); `cols` is the number of columns, once the set
exists. The set is built from the front: what is added after the current row is in the recursive call. With no columns, the matrix is NULL and so
is `apop_matrix_realloc` of it: error 'a' (lines 643-644). With too many fields there is an error 't', after the row was added
(lines 641-654). The row name is the first string (line 646). -/
def dataLoop {V : Type} (cell : CStr → V) (seq : Seq) (delims : CStr) (hr : Nat) (lineFuel : Nat) : Nat → Line → Option Nat → Run (TSet V)
  | 0, _, _ => .more
  | f + 1, l, cols =>
    if cols.isSome = true ∧ l.eof = true ∧ l.ct = 0 then .done {}
    else if l.ct = 0 then do
      let l ← parseLine seq delims lineFuel l.pos l.fn
      dataLoop cell seq delims hr lineFuel f l cols
    else
      if cols.getD (l.ct - hr) = 0 then .done { err := some 'a' }
      else do
        let strs ← Run.ofRes (takeStrs l.ct l.fn)
        if l.ct - hr > cols.getD (l.ct - hr) then
          .done (({ err := some 't' } : TSet V).push (strs.take hr) (rowOf cell (cols.getD (l.ct - hr)) []))
        else if l.eof then .done (({} : TSet V).push (strs.take hr) (rowOf cell (cols.getD (l.ct - hr)) (strs.drop hr)))
        else do
          let l' ← parseLine seq delims lineFuel l.pos l.fn
          let t ← dataLoop cell seq delims hr lineFuel f l' (some (cols.getD (l.ct - hr)))
          .done (t.push (strs.take hr) (rowOf cell (cols.getD (l.ct - hr)) (strs.drop hr)))

/-- `apop_text_to_data`, apop_conversions.m4.c:600-673 (delimited; the file can be opened). Names are taken for as many columns as the first data line
has (lines 629-630): with fewer names than that, memory outside the list is read. -/
def textToData {V : Type} (cell : CStr → V) (seq : Seq) (delims : CStr) (fuel : Nat) (hr : Nat) (header : Bool) : Run (TSet V) :=
  if header then do
    let h ← firstLine seq delims fuel fuel 0
    let l ← firstLine seq delims fuel fuel h.pos
    let names ← Run.ofRes (takeStrs (l.fn.length - hr) h.fn)
    let t ← dataLoop cell seq delims hr fuel fuel { l with ct := l.fn.length, eof := false } (some (l.fn.length - hr))
    .done { t with colnames := names }
  else dataLoop cell seq delims hr fuel fuel ⟨0, false, [], 0⟩ none

end Apop.Parse
