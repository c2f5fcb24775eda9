import Verif.Name.Model

/-! # From data to tables: `apop_table_exists`, `apop_data_to_db`, `apop_data_print` to a database (C107, C108)

The database is a list of tables and views, whose names are the same for SQLite if they are the same up to case. Numbers are any type, of which SQLite needs to know which are NaN: those are stored as NULL. Only the path with prepared statements is modelled, that for tables of up to 999 columns. -/

namespace Apop.Db.ToDb

/-- What a table has in a cell. -/
inductive Cell (V : Type) where
  | null
  | num (v : V)
  | text (s : CStr)
  deriving DecidableEq, Repr

/-- A table, or a view. -/
structure Table (V : Type) where
  name : CStr
  view : Bool := false
  cols : List CStr
  rows : List (List (Cell V))
  deriving DecidableEq, Repr

/-- A database. -/
abbrev Db (V : Type) := List (Table V)

variable {V : Type}

/-! ## What SQLite does -/

/-- The table an SQL command with this name is about. -/
def find (db : Db V) (name : CStr) : Option (Table V) := db.find? fun t => caseEq t.name name

/-- `drop table` or `drop view`. -/
def drop (db : Db V) (name : CStr) : Db V := db.filter fun t => !caseEq t.name name

/-- No two names are the same up to case. -/
def distinct : List CStr → Bool
  | [] => true
  | c :: cs => !cs.any (caseEq c) && distinct cs

/-- `create table name (cols)`: an error, and nothing done, if there is a table of that name, if there are no columns or two of the same name. Simplified: all names are taken to be ones that SQL accepts as they are written. -/
def create (db : Db V) (name : CStr) (cols : List CStr) : Db V :=
  if (find db name).isSome || cols.isEmpty || !distinct cols then db else db ++ [⟨name, false, cols, []⟩]

/-- One more row in a table. -/
def insert (db : Db V) (name : CStr) (row : List (Cell V)) : Db V := db.map fun t => if caseEq t.name name then { t with rows := t.rows ++ [row] } else t

/-! ## The code -/

/-- `apop_table_exists`, apop_db.m4.c:140-166, with SQLite; `none` for the database is that none is open. The result and the database. -/
def tableExists (db : Option (Db V)) (name : CStr) (remove : Bool) : Bool × Option (Db V) :=
  match db with
  | none => (false, none)
  | some d =>
    let there := d.any fun t => t.name == name
    (there, some (if remove && there then drop d name else d))

/-- A matrix with its width. -/
structure Mat (V : Type) where
  width : Nat
  rows : List (List V)

/-- A data set. -/
structure Set (V : Type) where
  names : Option Names
  vector : Option (List V)
  matrix : Option (Mat V)
  weights : Option (List V)
  textWidth : Nat
  text : List (List CStr)

/-- The options the code looks at, and which numbers are NaN. -/
structure Opts (V : Type) where
  nameColumn : Option CStr
  nanString : Option CStr
  isNan : V → Bool

/-- How many row names there are. -/
def rowct (s : Set V) : Nat := match s.names with | none => 0 | some n => n.row.length

/-- The number of rows that are written: `maxsize`, apop_internal.h:15. The weights are not looked at. -/
def maxsize (s : Set V) : Nat :=
  max (match s.vector with | none => 0 | some v => v.length) (max (match s.matrix with | none => 0 | some m => m.rows.length) s.text.length)

/-- `use_row`, apop_db.m4.c:547-549. -/
def useRow (o : Opts V) (s : Set V) : Bool :=
  (match o.nameColumn with | none => false | some c => c.length != 0) && s.names.isSome &&
  ((match s.matrix with | none => false | some m => rowct s == m.rows.length) || (match s.vector with | none => false | some v => rowct s == v.length))

/-- A list's name for a column, or the code's. -/
def colName (names : List CStr) (prefix' : String) (i : Nat) : CStr := (names[i]?).getD (str (prefix' ++ toString i))

/-- The columns of the table that is created, apop_db.m4.c:597-620. -/
def columns (o : Opts V) (s : Set V) : List CStr :=
  let n := s.names.getD .alloc
  (if useRow o s then o.nameColumn.toList else []) ++
  (match s.vector with | none => [] | some _ => [n.vector.getD (str "vector")]) ++
  (match s.matrix with | none => [] | some m => (List.range m.width).map (colName n.col "c")) ++
  (List.range s.textWidth).map (colName n.text "tc") ++
  (match s.weights with | none => [] | some _ => [str "weights"])

/-- `col_ct`, apop_db.m4.c:626. -/
def colCt (s : Set V) : Nat :=
  (if rowct s = 0 then 0 else 1) + s.textWidth + (match s.matrix with | none => 0 | some m => m.width) + (if s.vector.isSome then 1 else 0) + (if s.weights.isSome then 1 else 0)

/-- `sqlite3_bind_double`. -/
def bindNum (o : Opts V) (v : V) : Cell V := if o.isNan v then .null else .num v

/-- A text element: `none` is a field that is left as it is, apop_db.m4.c:519-521. -/
def textCell (o : Opts V) (s : CStr) : Option (Cell V) :=
  if s.length = 0 || o.nanString.any (caseEq · s) then none else some (.text s)

/-- A row name, apop_db.m4.c:504-509: for an empty one a field is left, and the name written in the next. -/
def nameCells (s : CStr) : List (Option (Cell V)) := (if s.length = 0 then [none] else []) ++ [some (.text s)]

/-- What is bound to the fields for a row, in order, apop_db.m4.c:502-528. -/
def fields (o : Opts V) (s : Set V) (row : Nat) : List (Option (Cell V)) :=
  (match s.names with | none => [] | some n => (match n.row[row]? with | none => [] | some r => nameCells r)) ++
  (match s.vector with | none => [] | some v => (match v[row]? with | none => [] | some x => [some (bindNum o x)])) ++
  (match s.matrix with | none => [] | some m => (match m.rows[row]? with | none => [] | some r => r.map fun x => some (bindNum o x))) ++
  (match s.text[row]? with | none => [] | some r => r.map (textCell o)) ++
  (match s.weights with | none => [] | some w => (match w[row]? with | none => [] | some x => [some (bindNum o x)]))

/-- `sqlite3_bind_*`, from field `f` on (the first is 1), on bindings that were cleared: `none` if SQLite says that there is no such field. -/
def bindAll : Nat → List (Option (Cell V)) → List (Cell V) → Option (List (Cell V))
  | _, [], b => some b
  | f, none :: xs, b => bindAll (f + 1) xs b
  | f, some c :: xs, b => if f - 1 < b.length then bindAll (f + 1) xs (b.set (f - 1) c) else none

/-- `run_prepared_statements`, apop_db.m4.c:496-537, from a row on, `k` rows. The result is 0 (`true`) or -1. -/
def insertRows (o : Opts V) (s : Set V) (name : CStr) (ct : Nat) : Nat → Nat → Db V → Bool × Db V
  | 0, _, db => (true, db)
  | k + 1, row, db =>
    match bindAll 1 (fields o s row) (List.replicate ct .null) with
    | none => (false, db)
    | some b => insertRows o s name ct k (row + 1) (insert db name b)

/-- `apop_prepare_prepared_statements`, apop_conversions.m4.c:1059-1073: SQLite does not prepare an insertion into what is not a table, or with another number of values than there are columns. -/
def prepareOk (db : Db V) (name : CStr) (ct : Nat) : Bool :=
  match find db name with
  | none => false
  | some t => !t.view && t.cols.length == ct

/-- `apop_data_to_db`, apop_db.m4.c:540-668, with SQLite, for a data set that is not NULL, of up to 999 columns: the result is 0 (`true`) or -1. A table that exists is appended to, whatever the last argument is, which is therefore left out. An open database is one in memory if none was. -/
def dataToDb (o : Opts V) (s : Set V) (name : CStr) (db : Option (Db V)) : Bool × Db V :=
  let d := if (tableExists db name false).1 then db.getD [] else create (db.getD []) name (columns o s)
  if colCt s = 0 then (false, d)
  else if prepareOk d name (colCt s) then insertRows o s name (colCt s) (maxsize s) 0 d
  else (false, d)

/-- `apop_data_print` to a table, apop_output.m4.c:319-331, with the default of apop_output.m4.c:51 for a letter that is not given. -/
def print (o : Opts V) (s : Set V) (name : CStr) (append : Option Char) (db : Option (Db V)) : Db V :=
  let db := if append.getD 'w' = 'w' then (tableExists db name true).2 else db
  (dataToDb o s name db).2

/-! ## Specification -/

/-- A database as SQLite keeps it: names are distinct up to case. -/
def Db.Ok (db : Db V) : Prop := db.Pairwise fun a b => caseEq a.name b.name = false

/-- All parts of the data set that are there have `n` rows, and the widths are right. -/
structure Set.Rect (s : Set V) (n : Nat) : Prop where
  vector : ∀ v, s.vector = some v → v.length = n
  matrix : ∀ m, s.matrix = some m → m.rows.length = n ∧ ∀ r ∈ m.rows, r.length = m.width
  text : (s.text.length = n ∧ ∀ r ∈ s.text, r.length = s.textWidth) ∨ (s.text = [] ∧ s.textWidth = 0)
  weights : ∀ w, s.weights = some w → w.length = n
  some : s.vector.isSome ∨ s.matrix.isSome ∨ s.text ≠ []

/-- There are no row names; or there are as many as rows, none is empty, there is a name for their column, and there is a vector or a matrix. -/
def NamesOk (o : Opts V) (s : Set V) (n : Nat) : Prop :=
  rowct s = 0 ∨ (rowct s = n ∧ (∀ nm, s.names = some nm → [] ∉ nm.row) ∧ (∃ c, o.nameColumn = some c ∧ c ≠ []) ∧ (s.vector.isSome ∨ s.matrix.isSome))

/-- The cell for a string of the text. -/
def strCell (o : Opts V) (s : CStr) : Cell V := if s = [] ∨ (∃ n, o.nanString = some n ∧ caseEq n s = true) then .null else .text s

/-- The row of the table for a row of the data set: name, vector, matrix, text, weight. -/
def rowOf (o : Opts V) (s : Set V) (i : Nat) : List (Cell V) :=
  (match s.names with | none => [] | some n => (n.row[i]?).toList.map .text) ++
  (match s.vector with | none => [] | some v => (v[i]?).toList.map (bindNum o)) ++
  (match s.matrix with | none => [] | some m => (m.rows[i]?).toList.flatten.map (bindNum o)) ++
  (s.text[i]?).toList.flatten.map (strCell o) ++
  (match s.weights with | none => [] | some w => (w[i]?).toList.map (bindNum o))

/-! ## Proofs -/

theorem textCell_spec (o : Opts V) (s : CStr) : (textCell o s).getD .null = strCell o s := by
  unfold textCell strCell
  cases hs : o.nanString with
  | none => by_cases h : s = [] <;> simp [h]
  | some n =>
    by_cases h : s = []
    · simp [h]
    · cases h2 : caseEq n s <;> simp [h, h2]

theorem bindAll_fill : ∀ (F : List (Option (Cell V))) (done : List (Cell V)) (k : Nat), F.length ≤ k →
    bindAll (done.length + 1) F (done ++ List.replicate k .null) = some (done ++ F.map (·.getD .null) ++ List.replicate (k - F.length) .null)
  | [], done, k, _ => by simp [bindAll]
  | x :: F, done, 0, h => by simp at h
  | x :: F, done, k + 1, h => by
    have ih := bindAll_fill F (done ++ [x.getD .null]) k (by simpa using h)
    have e : done ++ List.replicate (k + 1) (Cell.null : Cell V) = (done ++ [.null]) ++ List.replicate k .null := by simp [List.replicate_succ]
    simp only [List.length_append, List.length_cons, List.length_nil, Nat.zero_add] at ih
    cases x with
    | none =>
      rw [bindAll, e]
      simp only [Option.getD_none] at ih
      rw [ih]
      simp [Nat.add_sub_add_right]
    | some c =>
      rw [bindAll, if_pos (by simp)]
      have hset : (done ++ List.replicate (k + 1) (Cell.null : Cell V)).set (done.length + 1 - 1) c = (done ++ [c]) ++ List.replicate k .null := by
        rw [Nat.add_sub_cancel, List.set_append_right _ _ (Nat.le_refl _)]
        simp [List.replicate_succ]
      rw [hset]
      simp only [Option.getD_some] at ih
      rw [ih]
      simp [Nat.add_sub_add_right]

theorem bindAll_exact (F : List (Option (Cell V))) (ct : Nat) (h : F.length = ct) : bindAll 1 F (List.replicate ct .null) = some (F.map (·.getD .null)) := by
  have := bindAll_fill F [] ct (by omega)
  simpa [h] using this

theorem bindAll_over : ∀ (F : List (Option (Cell V))) (f : Nat) (b : List (Cell V)) (c : Cell V), b.length < f + F.length → 0 < f → bindAll f (F ++ [some c]) b = none
  | [], f, b, c, h, hf => by simp at h; simp [bindAll]; omega
  | none :: F, f, b, c, h, hf => by
    simp only [List.length_cons] at h
    rw [List.cons_append, bindAll]
    exact bindAll_over F (f + 1) b c (by omega) (by omega)
  | some x :: F, f, b, c, h, hf => by
    simp only [List.length_cons] at h
    rw [List.cons_append, bindAll]
    split
    · exact bindAll_over F (f + 1) _ c (by simp; omega) (by omega)
    · rfl

/-- Rows appended to a table. -/
def appendRows (db : Db V) (name : CStr) (rs : List (List (Cell V))) : Db V := db.map fun t => if caseEq t.name name then { t with rows := t.rows ++ rs } else t

theorem appendRows_nil (db : Db V) (name : CStr) : appendRows db name [] = db := by
  unfold appendRows
  conv => rhs; rw [← List.map_id db]
  apply List.map_congr_left
  intro t _
  split <;> simp

theorem appendRows_insert (db : Db V) (name : CStr) (r : List (Cell V)) (rs : List (List (Cell V))) : appendRows (insert db name r) name rs = appendRows db name (r :: rs) := by
  unfold appendRows insert
  rw [List.map_map]
  apply List.map_congr_left
  intro t _
  simp only [Function.comp]
  by_cases h : caseEq t.name name <;> simp [h]

theorem insertRows_ok (o : Opts V) (s : Set V) (name : CStr) (ct : Nat) : ∀ (k row : Nat) (db : Db V), (∀ i, row ≤ i → i < row + k → (fields o s i).length = ct) →
    insertRows o s name ct k row db = (true, appendRows db name ((List.range k).map fun i => (fields o s (row + i)).map (·.getD .null)))
  | 0, row, db, _ => by simp [insertRows, appendRows_nil]
  | k + 1, row, db, h => by
    rw [insertRows, bindAll_exact _ _ (h row (by omega) (by omega))]
    simp only
    rw [insertRows_ok o s name ct k (row + 1) _ (fun i h1 h2 => h i (by omega) (by omega)), appendRows_insert, List.range_succ_eq_map]
    simp only [List.map_cons, List.map_map, Nat.add_zero]
    congr 3
    congr 1
    funext i
    simp only [Function.comp]
    rw [show row + 1 + i = row + i.succ by omega]

theorem insertRows_add (o : Opts V) (s : Set V) (name : CStr) (ct : Nat) : ∀ (k l row : Nat) (db db' : Db V), insertRows o s name ct k row db = (true, db') →
    insertRows o s name ct (k + l) row db = insertRows o s name ct l (row + k) db'
  | 0, l, row, db, db', h => by
    simp only [insertRows, Prod.mk.injEq, true_and] at h
    simp [h]
  | k + 1, l, row, db, db', h => by
    rw [insertRows] at h
    rw [Nat.add_right_comm, insertRows]
    cases hb : bindAll 1 (fields o s row) (List.replicate ct .null) with
    | none => rw [hb] at h; simp at h
    | some b =>
      rw [hb] at h
      simp only at h ⊢
      rw [insertRows_add o s name ct k l (row + 1) _ db' h, show row + 1 + k = row + (k + 1) by omega]

theorem maxsize_rect (s : Set V) (n : Nat) (h : s.Rect n) : maxsize s = n := by
  have h1 : (match s.vector with | none => 0 | some v => v.length) = if s.vector.isSome then n else 0 := by
    cases hv : s.vector with
    | none => rfl
    | some v => simp [h.vector v hv]
  have h2 : (match s.matrix with | none => 0 | some m => m.rows.length) = if s.matrix.isSome then n else 0 := by
    cases hv : s.matrix with
    | none => rfl
    | some v => simp [(h.matrix v hv).1]
  unfold maxsize
  rw [h1, h2]
  rcases h.text with ⟨ht, _⟩ | ⟨ht, _⟩
  · rw [ht]; split <;> split <;> omega
  · rw [ht]
    rcases h.some with hs | hs | hs
    · rw [hs]; simp; split <;> omega
    · rw [hs]; simp; split <;> omega
    · exact absurd ht hs

theorem nameCells_ok (r : CStr) (h : r ≠ []) : (nameCells r : List (Option (Cell V))) = [some (.text r)] := by
  simp [nameCells, h]

theorem fields_spec (o : Opts V) (s : Set V) (n : Nat) (h : s.Rect n) (hn : NamesOk o s n) (i : Nat) (hi : i < n) :
    (fields o s i).length = colCt s ∧ (fields o s i).map (·.getD .null) = rowOf o s i := by
  have hname : ((match s.names with | none => [] | some n => (match n.row[i]? with | none => [] | some r => nameCells r)) : List (Option (Cell V))) = (match s.names with | none => [] | some n => (n.row[i]?).toList.map fun r => some (.text r))
      ∧ ((match s.names with | none => [] | some n => (n.row[i]?).toList.map fun r => some (.text r)) : List (Option (Cell V))).length = if rowct s = 0 then 0 else 1 := by
    cases hnm : s.names with
    | none => simp [rowct, hnm]
    | some nm =>
      simp only
      rcases hn with hn | ⟨hn, hne, _⟩
      · simp only [rowct, hnm] at hn
        rw [List.length_eq_zero_iff] at hn
        simp [hn, rowct, hnm]
      · simp only [rowct, hnm] at hn
        have hlt : i < nm.row.length := by omega
        have hmem : nm.row[i] ≠ [] := fun e => hne nm hnm (e ▸ List.getElem_mem hlt)
        rw [List.getElem?_eq_getElem hlt]
        have : rowct s ≠ 0 := by simp only [rowct, hnm]; omega
        simp [nameCells_ok _ hmem, this]
  have hvec : ((match s.vector with | none => [] | some v => (match v[i]? with | none => [] | some x => [some (bindNum o x)])) : List (Option (Cell V))) = (match s.vector with | none => [] | some v => (v[i]?).toList.map fun x => some (bindNum o x))
      ∧ ((match s.vector with | none => [] | some v => (v[i]?).toList.map fun x => some (bindNum o x)) : List (Option (Cell V))).length = if s.vector.isSome then 1 else 0 := by
    cases hv : s.vector with
    | none => simp
    | some v =>
      have := h.vector v hv
      simp [List.getElem?_eq_getElem (by omega : i < v.length)]
  have hwts : ((match s.weights with | none => [] | some v => (match v[i]? with | none => [] | some x => [some (bindNum o x)])) : List (Option (Cell V))) = (match s.weights with | none => [] | some v => (v[i]?).toList.map fun x => some (bindNum o x))
      ∧ ((match s.weights with | none => [] | some v => (v[i]?).toList.map fun x => some (bindNum o x)) : List (Option (Cell V))).length = if s.weights.isSome then 1 else 0 := by
    cases hv : s.weights with
    | none => simp
    | some v =>
      have := h.weights v hv
      simp [List.getElem?_eq_getElem (by omega : i < v.length)]
  have hmat : ((match s.matrix with | none => [] | some m => (match m.rows[i]? with | none => [] | some r => r.map fun x => some (bindNum o x))) : List (Option (Cell V))) = (match s.matrix with | none => [] | some m => (m.rows[i]?).toList.flatten.map fun x => some (bindNum o x))
      ∧ ((match s.matrix with | none => [] | some m => (m.rows[i]?).toList.flatten.map fun x => some (bindNum o x)) : List (Option (Cell V))).length = (match s.matrix with | none => 0 | some m => m.width) := by
    cases hv : s.matrix with
    | none => simp
    | some m =>
      have := h.matrix m hv
      have hlt : i < m.rows.length := by omega
      simp [List.getElem?_eq_getElem hlt, this.2 _ (List.getElem_mem hlt)]
  have htext : ((match s.text[i]? with | none => [] | some r => r.map (textCell o)) : List (Option (Cell V))) = (s.text[i]?).toList.flatten.map (textCell o)
      ∧ ((s.text[i]?).toList.flatten.map (textCell o) : List (Option (Cell V))).length = s.textWidth := by
    rcases h.text with ⟨ht, hw⟩ | ⟨ht, hw⟩
    · have hlt : i < s.text.length := by omega
      simp [List.getElem?_eq_getElem hlt, hw _ (List.getElem_mem hlt)]
    · simp [ht, hw]
  have e : fields o s i = (match s.names with | none => [] | some n => (n.row[i]?).toList.map fun r => some (.text r)) ++ (match s.vector with | none => [] | some v => (v[i]?).toList.map fun x => some (bindNum o x)) ++
      (match s.matrix with | none => [] | some m => (m.rows[i]?).toList.flatten.map fun x => some (bindNum o x)) ++ (s.text[i]?).toList.flatten.map (textCell o) ++ (match s.weights with | none => [] | some v => (v[i]?).toList.map fun x => some (bindNum o x)) := by
    unfold fields
    rw [hname.1, hvec.1, hmat.1, htext.1, hwts.1]
  constructor
  · rw [e]
    simp only [List.length_append]
    rw [hname.2, hvec.2, hmat.2, htext.2, hwts.2]
    unfold colCt
    omega
  · rw [e]
    unfold rowOf
    simp only [List.map_append]
    congr 1
    · congr 1
      · congr 1
        · congr 1
          · cases s.names <;> simp
          · cases s.vector <;> simp
        · cases s.matrix <;> simp [Function.comp_def]
      · rw [List.map_map]
        apply List.map_congr_left
        intro x _
        exact textCell_spec o x
    · cases s.weights <;> simp

theorem useRow_ok (o : Opts V) (s : Set V) (n : Nat) (hp : 0 < n) (h : s.Rect n) (hn : NamesOk o s n) : useRow o s = (rowct s != 0) := by
  rcases hn with hn | ⟨hn, hne, ⟨c, hc, hc0⟩, hs⟩
  · have a : ∀ m, s.matrix = some m → (rowct s == m.rows.length) = false := fun m hm => by
      have := (h.matrix m hm).1; simp; omega
    have b : ∀ v, s.vector = some v → (rowct s == v.length) = false := fun v hv => by
      have := h.vector v hv; simp; omega
    unfold useRow
    cases hm : s.matrix <;> cases hv : s.vector <;> simp [hn] <;> first
      | (have := a _ hm; rw [hn] at this; simp at this; have := b _ hv; rw [hn] at this; simp at this; simp [*])
      | (have := a _ hm; rw [hn] at this; simp at this; simp [*])
      | (have := b _ hv; rw [hn] at this; simp at this; simp [*])
      | skip
  · have hsome : s.names.isSome := by
      cases hnm : s.names with
      | none => simp only [rowct, hnm] at hn; omega
      | some _ => rfl
    have hl : (c.length != 0) = true := by simp [hc0]
    have hr : (rowct s != 0) = true := by simp; omega
    unfold useRow
    rw [hc, hsome, hr]
    simp only [hl, Bool.true_and]
    rcases hs with hs | hs
    · obtain ⟨v, hv⟩ := Option.isSome_iff_exists.1 hs
      simp [hv, hn, h.vector v hv]
    · obtain ⟨m, hm⟩ := Option.isSome_iff_exists.1 hs
      simp [hm, hn, (h.matrix m hm).1]

theorem columns_length (o : Opts V) (s : Set V) : (columns o s).length + (if rowct s = 0 then 0 else 1) = colCt s + (if useRow o s then 1 else 0) := by
  have hc : useRow o s = true → o.nameColumn.toList.length = 1 := by
    intro h
    unfold useRow at h
    cases hn : o.nameColumn with
    | none => rw [hn] at h; simp at h
    | some c => rfl
  unfold columns colCt
  simp only [List.length_append, List.length_map, List.length_range]
  cases hu : useRow o s
  · cases s.vector <;> cases s.matrix <;> cases s.weights <;> simp <;> omega
  · have := hc hu
    cases s.vector <;> cases s.matrix <;> cases s.weights <;> simp [this] <;> omega

theorem find_exact (d : Db V) (ok : Db.Ok d) (t : Table V) (ht : t ∈ d) : ∀ u ∈ d, caseEq u.name t.name = true → u = t := by
  induction d with
  | nil => simp at ht
  | cons x d ih =>
    have hp := List.pairwise_cons.1 ok
    intro u hu he
    rcases List.mem_cons.1 ht with rfl | ht'
    · rcases List.mem_cons.1 hu with rfl | hu
      · rfl
      · have := hp.1 u hu; rw [caseEq_comm, he] at this; simp at this
    · rcases List.mem_cons.1 hu with rfl | hu
      · have := hp.1 t ht'; rw [he] at this; simp at this
      · exact ih hp.2 ht' u hu he

theorem find_some (d : Db V) (ok : Db.Ok d) (t : Table V) (ht : t ∈ d) (name : CStr) (hn : caseEq t.name name = true) : find d name = some t := by
  unfold find
  cases h : d.find? (fun t => caseEq t.name name) with
  | none => have := List.find?_eq_none.1 h t ht; simp [hn] at this
  | some u =>
    have hu := List.mem_of_find?_eq_some h
    have he := List.find?_some h
    rw [find_exact d ok t ht u hu (caseEq_trans he (by rw [caseEq_comm]; exact hn))]

/-- The rows of the table for the data set. -/
def rowsOf (o : Opts V) (s : Set V) (n : Nat) : List (List (Cell V)) := (List.range n).map (rowOf o s)

theorem insert_rect (o : Opts V) (s : Set V) (n : Nat) (h : s.Rect n) (hn : NamesOk o s n) (name : CStr) (db : Db V) :
    insertRows o s name (colCt s) (maxsize s) 0 db = (true, appendRows db name (rowsOf o s n)) := by
  rw [maxsize_rect s n h, insertRows_ok o s name (colCt s) n 0 db (fun i _ hi => (fields_spec o s n h hn i (by omega)).1)]
  congr 2
  unfold rowsOf
  apply List.map_congr_left
  intro i hi
  rw [Nat.zero_add, (fields_spec o s n h hn i (List.mem_range.1 hi)).2]

theorem colCt_pos (s : Set V) (n : Nat) (_ : 0 < n) (h : s.Rect n) (hw : ∀ m, s.matrix = some m → 0 < m.width) (ht : s.text ≠ [] → 0 < s.textWidth) : colCt s ≠ 0 := by
  unfold colCt
  rcases h.some with hs | hs | hs
  · simp [hs]
  · obtain ⟨m, hm⟩ := Option.isSome_iff_exists.1 hs
    have := hw m hm
    simp only [hm]; omega
  · have := ht hs; omega

theorem append_new (d : Db V) (name : CStr) (cols : List CStr) (rs : List (List (Cell V))) (hf : find d name = none) :
    appendRows (d ++ [⟨name, false, cols, []⟩]) name rs = d ++ [⟨name, false, cols, rs⟩] := by
  unfold appendRows
  rw [List.map_append]
  congr 1
  · conv => rhs; rw [← List.map_id d]
    apply List.map_congr_left
    intro t ht
    have := List.find?_eq_none.1 hf t ht
    simp at this
    simp [this]
  · simp [caseEq_refl]

theorem find_new (d : Db V) (name : CStr) (cols : List CStr) (hf : find d name = none) : find (d ++ [⟨name, false, cols, []⟩]) name = some ⟨name, false, cols, []⟩ := by
  unfold find at hf ⊢
  rw [List.find?_append, hf]
  simp [caseEq_refl]

theorem not_there (d : Db V) (name : CStr) (hf : find d name = none) : (d.any fun t => t.name == name) = false := by
  rw [List.any_eq_false]
  intro t ht
  have := List.find?_eq_none.1 hf t ht
  simp at this ⊢
  rintro rfl
  rw [caseEq_refl] at this
  simp at this

theorem skip {α : Type} (A R : List α) (n j : Nat) (h : n = A.length + j) : (A ++ R)[n]? = R[j]? := by
  subst h; rw [List.getElem?_append_right (by omega), Nat.add_sub_cancel_left]

/-! ## The theorems -/

/-- **C107 (a new table).** For every data set whose parts have the same number of rows, with no row names or with as many as rows, of which none is empty: if there is no table of that name and the column names are distinct, the table is created with a column for the row names (if there are any), for the vector, for each column of the matrix and of the text, and for the weights; it gets a row for each row of the data set, each part in its column, NULL for a NaN, an empty string or the NaN string; other tables are as before; and the result is 0. -/
theorem C107_new_table (o : Opts V) (s : Set V) (n : Nat) (hp : 0 < n) (h : s.Rect n) (hn : NamesOk o s n) (hw : ∀ m, s.matrix = some m → 0 < m.width) (ht : s.text ≠ [] → 0 < s.textWidth)
    (name : CStr) (d : Db V) (hf : find d name = none) (hd : distinct (columns o s) = true) :
    dataToDb o s name (some d) = (true, d ++ [⟨name, false, columns o s, rowsOf o s n⟩]) ∧ (columns o s).length = colCt s ∧ ∀ i < n, (rowOf o s i).length = colCt s := by
  have hlen : (columns o s).length = colCt s := by
    have := columns_length o s
    rw [useRow_ok o s n hp h hn] at this
    by_cases h0 : rowct s = 0 <;> simp [h0] at this <;> omega
  have hc := colCt_pos s n hp h hw ht
  refine ⟨?_, hlen, ?_⟩
  · have hcr : create d name (columns o s) = d ++ [⟨name, false, columns o s, []⟩] := by
      have : columns o s ≠ [] := by intro e; rw [e] at hlen; simp at hlen; omega
      simp [create, hf, hd, this]
    unfold dataToDb
    simp only [tableExists, not_there d name hf, Option.getD_some, hcr, if_neg hc]
    have hpr : prepareOk (d ++ [⟨name, false, columns o s, []⟩]) name (colCt s) = true := by
      simp [prepareOk, find_new d name _ hf, hlen]
    simp only [Bool.false_eq_true, if_false, hpr, if_true]
    rw [insert_rect o s n h hn, append_new d name _ _ hf]
  · intro i hi
    have := fields_spec o s n h hn i hi
    rw [← this.2, List.length_map, this.1]

/-- A data set with text alone and a name for each row does not use them: a case of `C107_names_refuted`. -/
theorem C107_text_names_refuted (o : Opts V) (s : Set V) (hv : s.vector = none) (hm : s.matrix = none) : useRow o s = false := by
  simp [useRow, hv, hm]

/-- **C107 (each value in its column).** In a table made of such a data set the row names are in the column with the options' name for it, the vector in that with the vector's name, and so on: `k` and the like are the numbers of columns before. -/
theorem C107_positions (o : Opts V) (s : Set V) (n : Nat) (hp : 0 < n) (h : s.Rect n) (hn : NamesOk o s n) (i : Nat) (hi : i < n) (k kv km kt : Nat) (hk : k = if rowct s = 0 then 0 else 1)
    (hkv : kv = k + if s.vector.isSome then 1 else 0) (hkm : km = kv + (match s.matrix with | none => 0 | some m => m.width)) (hkt : kt = km + s.textWidth) (nm : Names) (hnm : nm = s.names.getD .alloc) :
    (rowct s ≠ 0 → (columns o s)[0]? = o.nameColumn ∧ (rowOf o s i)[0]? = (nm.row[i]?).map .text) ∧
    (∀ v, s.vector = some v → (columns o s)[k]? = some (nm.vector.getD (str "vector")) ∧ (rowOf o s i)[k]? = (v[i]?).map (bindNum o)) ∧
    (∀ m j, s.matrix = some m → j < m.width → (columns o s)[kv + j]? = some ((nm.col[j]?).getD (str ("c" ++ toString j))) ∧ (rowOf o s i)[kv + j]? = ((m.rows[i]?).bind (·[j]?)).map (bindNum o)) ∧
    (∀ j, j < s.textWidth → (columns o s)[km + j]? = some ((nm.text[j]?).getD (str ("tc" ++ toString j))) ∧ (rowOf o s i)[km + j]? = ((s.text[i]?).bind (·[j]?)).map (strCell o)) ∧
    (∀ w, s.weights = some w → (columns o s)[kt]? = some (str "weights") ∧ (rowOf o s i)[kt]? = (w[i]?).map (bindNum o)) := by
  have hu := useRow_ok o s n hp h hn
  -- the parts of both lists, and their lengths
  obtain ⟨A, hA⟩ : ∃ A, A = (if useRow o s then o.nameColumn.toList else []) := ⟨_, rfl⟩
  obtain ⟨B, hB⟩ : ∃ B : List CStr, B = (match s.vector with | none => [] | some _ => [nm.vector.getD (str "vector")]) := ⟨_, rfl⟩
  obtain ⟨C, hC⟩ : ∃ C, C = (match s.matrix with | none => [] | some m => (List.range m.width).map (colName nm.col "c")) := ⟨_, rfl⟩
  obtain ⟨D, hD⟩ : ∃ D, D = (List.range s.textWidth).map (colName nm.text "tc") := ⟨_, rfl⟩
  obtain ⟨E, hE⟩ : ∃ E : List CStr, E = (match s.weights with | none => [] | some _ => [str "weights"]) := ⟨_, rfl⟩
  obtain ⟨A', hA'⟩ : ∃ A' : List (Cell V), A' = (match s.names with | none => [] | some n => (n.row[i]?).toList.map .text) := ⟨_, rfl⟩
  obtain ⟨B', hB'⟩ : ∃ B', B' = (match s.vector with | none => [] | some v => (v[i]?).toList.map (bindNum o)) := ⟨_, rfl⟩
  obtain ⟨C', hC'⟩ : ∃ C', C' = (match s.matrix with | none => [] | some m => (m.rows[i]?).toList.flatten.map (bindNum o)) := ⟨_, rfl⟩
  obtain ⟨D', hD'⟩ : ∃ D', D' = (s.text[i]?).toList.flatten.map (strCell o) := ⟨_, rfl⟩
  obtain ⟨E', hE'⟩ : ∃ E', E' = (match s.weights with | none => [] | some w => (w[i]?).toList.map (bindNum o)) := ⟨_, rfl⟩
  have ec : columns o s = A ++ (B ++ (C ++ (D ++ E))) := by simp only [columns, hA, hB, hC, hD, hE, hnm, List.append_assoc]
  have er : rowOf o s i = A' ++ (B' ++ (C' ++ (D' ++ E'))) := by simp only [rowOf, hA', hB', hC', hD', hE', List.append_assoc]
  have lA : A.length = k ∧ A'.length = k ∧ (rowct s ≠ 0 → A[0]? = o.nameColumn ∧ A'[0]? = (nm.row[i]?).map .text) := by
    rw [hA, hA', hk, hu]
    rcases hn with h0 | ⟨h0, _, ⟨c, hc, _⟩, _⟩
    · refine ⟨by simp [h0], ?_, fun h => absurd h0 h⟩
      cases hs : s.names with
      | none => simp [h0]
      | some nm' =>
        simp only [rowct, hs] at h0
        simp [rowct, hs, List.length_eq_zero_iff.1 h0]
    · have hr : rowct s ≠ 0 := by omega
      cases hs : s.names with
      | none => simp [rowct, hs] at hr
      | some nm' =>
        have hl : i < nm'.row.length := by simp only [rowct, hs] at h0; omega
        simp [hr, hc, hnm, hs, List.getElem?_eq_getElem hl]
  have lB : B.length = (if s.vector.isSome then 1 else 0) ∧ B'.length = (if s.vector.isSome then 1 else 0) := by
    rw [hB, hB']
    cases hs : s.vector with
    | none => simp
    | some v =>
      have := h.vector v hs
      simp [List.getElem?_eq_getElem (by omega : i < v.length)]
  have lC : C.length = (match s.matrix with | none => 0 | some m => m.width) ∧ C'.length = (match s.matrix with | none => 0 | some m => m.width) := by
    rw [hC, hC']
    cases hs : s.matrix with
    | none => simp
    | some m =>
      have := h.matrix m hs
      have hl : i < m.rows.length := by omega
      simp [List.getElem?_eq_getElem hl, this.2 _ (List.getElem_mem hl)]
  have lD : D.length = s.textWidth ∧ D'.length = s.textWidth := by
    rw [hD, hD']
    rcases h.text with ⟨ht, hw⟩ | ⟨ht, hw⟩
    · have hl : i < s.text.length := by omega
      simp [List.getElem?_eq_getElem hl, hw _ (List.getElem_mem hl)]
    · simp [ht, hw]
  refine ⟨?_, ?_, ?_, ?_, ?_⟩
  · intro hr
    have hk1 : k = 1 := by rw [hk, if_neg hr]
    rw [ec, er, List.getElem?_append_left (by omega), List.getElem?_append_left (by omega)]
    exact lA.2.2 hr
  · intro v hv
    have l1 : 0 < B.length := by simp [lB.1, hv]
    have l2 : 0 < B'.length := by simp [lB.2, hv]
    rw [ec, er, skip A _ k 0 (by omega), skip A' _ k 0 (by omega), List.getElem?_append_left l1, List.getElem?_append_left l2, hB, hB', hv]
    have := h.vector v hv
    simp [List.getElem?_eq_getElem (by omega : i < v.length)]
  · intro m j hm hj
    have l1 : j < C.length := by rw [lC.1, hm]; exact hj
    have l2 : j < C'.length := by rw [lC.2, hm]; exact hj
    have e1 := lB.1
    have e2 := lB.2
    rw [ec, er, skip A _ _ (B.length + j) (by omega), skip A' _ _ (B'.length + j) (by omega), skip B _ _ j rfl, skip B' _ _ j rfl, List.getElem?_append_left l1, List.getElem?_append_left l2, hC, hC', hm]
    have := h.matrix m hm
    have hl : i < m.rows.length := by omega
    simp [List.getElem?_eq_getElem hl, colName, hj]
  · intro j hj
    have e1 := lB.1
    have e2 := lB.2
    have e3 := lC.1
    have e4 := lC.2
    rw [ec, er, skip A _ _ (B.length + (C.length + j)) (by omega), skip A' _ _ (B'.length + (C'.length + j)) (by omega), skip B _ _ (C.length + j) rfl, skip B' _ _ (C'.length + j) rfl, skip C _ _ j rfl, skip C' _ _ j rfl,
      List.getElem?_append_left (by omega), List.getElem?_append_left (by omega), hD, hD']
    rcases h.text with ⟨ht, hw⟩ | ⟨ht, hw⟩
    · have hl : i < s.text.length := by omega
      simp [List.getElem?_eq_getElem hl, colName, hj]
    · omega
  · intro w hw
    have e1 := lB.1
    have e2 := lB.2
    have e3 := lC.1
    have e4 := lC.2
    rw [ec, er, skip A _ _ (B.length + (C.length + (D.length + 0))) (by omega), skip A' _ _ (B'.length + (C'.length + (D'.length + 0))) (by omega), skip B _ _ _ rfl, skip B' _ _ _ rfl, skip C _ _ _ rfl, skip C' _ _ _ rfl,
      skip D _ _ _ rfl, skip D' _ _ _ rfl, hE, hE', hw]
    have := h.weights w hw
    simp [List.getElem?_eq_getElem (by omega : i < w.length)]

/-- Nothing is written in a table of that name that has another number of columns, or in a view: the result is -1, and the database is as it was. -/
theorem C107_mismatch (o : Opts V) (s : Set V) (d : Db V) (ok : Db.Ok d) (t : Table V) (htd : t ∈ d) (hbad : t.view = true ∨ t.cols.length ≠ colCt s) : dataToDb o s t.name (some d) = (false, d) := by
  have hthere : (d.any fun u => u.name == t.name) = true := List.any_eq_true.2 ⟨t, htd, by simp⟩
  have hf := find_some d ok t htd t.name (caseEq_refl _)
  have hpr : prepareOk d t.name (colCt s) = false := by
    rcases hbad with hb | hb <;> simp [prepareOk, hf, hb]
  unfold dataToDb
  simp [tableExists, hthere, hpr]

/-- A data set with nothing in it: -1, and the database is as it was. -/
theorem C107_empty (o : Opts V) (s : Set V) (d : Db V) (hm : s.matrix = none) (h0 : colCt s = 0) (name : CStr) : dataToDb o s name (some d) = (false, d) := by
  have hv : s.vector = none := by
    unfold colCt at h0
    cases h : s.vector with
    | none => rfl
    | some v => rw [h] at h0; simp at h0
  have hc : columns o s = [] := by
    have := columns_length o s
    have hu : useRow o s = false := C107_text_names_refuted o s hv hm
    rw [hu] at this
    simp only [Bool.false_eq_true, if_false] at this
    exact List.length_eq_zero_iff.1 (by omega)
  unfold dataToDb
  simp [h0, hc, create, tableExists]

/-- **C107 (an existing table).** If there is a table of just that name, with as many columns, the rows are appended to it. -/
theorem C107_append (o : Opts V) (s : Set V) (n : Nat) (hp : 0 < n) (h : s.Rect n) (hn : NamesOk o s n) (hw : ∀ m, s.matrix = some m → 0 < m.width) (ht : s.text ≠ [] → 0 < s.textWidth)
    (d : Db V) (ok : Db.Ok d) (t : Table V) (htd : t ∈ d) (hv : t.view = false) (hl : t.cols.length = colCt s) :
    dataToDb o s t.name (some d) = (true, d.map fun u => if u.name = t.name then { u with rows := u.rows ++ rowsOf o s n } else u) := by
  have hc := colCt_pos s n hp h hw ht
  have hthere : (d.any fun u => u.name == t.name) = true := List.any_eq_true.2 ⟨t, htd, by simp⟩
  have hf := find_some d ok t htd t.name (caseEq_refl _)
  unfold dataToDb
  simp only [tableExists, hthere, if_true, Option.getD_some, if_neg hc]
  rw [if_pos (by simp [prepareOk, hf, hv, hl]), insert_rect o s n h hn]
  congr 1
  unfold appendRows
  apply List.map_congr_left
  intro u hu
  by_cases e : u.name = t.name
  · simp [e, caseEq_refl]
  · have : caseEq u.name t.name = false := by
      cases hcs : caseEq u.name t.name with
      | false => rfl
      | true => exact absurd (congrArg Table.name (find_exact d ok t htd u hu hcs)) e
    simp [e, this]

/-- **C107 (names without their column) fails**: if there are row names, but not as many as the matrix or the vector has rows — as in every data set that has only text — or if the name of their column is not set, the statement has one value more than the table columns: the table is created, nothing is written in it, and the result is -1. -/
theorem C107_names_refuted (o : Opts V) (s : Set V) (hr : rowct s ≠ 0) (hu : useRow o s = false) (name : CStr) (d : Db V) (hf : find d name = none) (hd : distinct (columns o s) = true) (hne : columns o s ≠ []) :
    dataToDb o s name (some d) = (false, d ++ [⟨name, false, columns o s, []⟩]) := by
  have hlen := columns_length o s
  rw [if_neg hr, hu] at hlen
  simp only [Bool.false_eq_true, if_false, Nat.add_zero] at hlen
  have hcr : create d name (columns o s) = d ++ [⟨name, false, columns o s, []⟩] := by simp [create, hf, hd, hne]
  have hpr : prepareOk (d ++ [⟨name, false, columns o s, []⟩]) name (colCt s) = false := by
    simp [prepareOk, find_new d name _ hf]; omega
  unfold dataToDb
  simp only [tableExists, not_there d name hf, Option.getD_some, hcr]
  simp [hpr]

/-- **C107 (an empty row name) fails**: of a data set with weights, where everything else is right, the rows before the first empty name are written; at that row all values are bound one field too far, and the function gives up with -1. -/
theorem C107_empty_name_refuted (o : Opts V) (s : Set V) (n : Nat) (h : s.Rect n) (nm : Names) (hnm : s.names = some nm) (hl : nm.row.length = n) (c : CStr) (hc : o.nameColumn = some c) (hc0 : c ≠ [])
    (hvm : s.vector.isSome ∨ s.matrix.isSome) (w : List V) (hw : s.weights = some w) (i : Nat) (hi : i < n) (hr : nm.row[i]? = some []) (hb : ∀ j < i, nm.row[j]? ≠ some [])
    (name : CStr) (d : Db V) (hf : find d name = none) (hd : distinct (columns o s) = true) :
    dataToDb o s name (some d) = (false, d ++ [⟨name, false, columns o s, (List.range i).map (rowOf o s)⟩]) := by
  have hrc : rowct s = n := by simp [rowct, hnm, hl]
  have hu : useRow o s = true := by
    unfold useRow
    have hl : (c.length != 0) = true := by simp [hc0]
    rw [hc, hnm]
    simp only [hl, Option.isSome_some, Bool.true_and]
    rcases hvm with hs | hs
    · obtain ⟨v, hv⟩ := Option.isSome_iff_exists.1 hs
      simp [hv, hrc, h.vector v hv]
    · obtain ⟨m, hm⟩ := Option.isSome_iff_exists.1 hs
      simp [hm, hrc, (h.matrix m hm).1]
  have hlen : (columns o s).length = colCt s := by
    have := columns_length o s
    rw [hu, if_neg (by omega)] at this
    simp at this; omega
  have hct : colCt s ≠ 0 := by unfold colCt; simp [hw]
  -- the fields do not look at other rows: take a set whose names are not empty
  have hother : ∀ j, j < n → nm.row[j]? ≠ some [] → (fields o s j).length = colCt s ∧ (fields o s j).map (·.getD .null) = rowOf o s j := by
    intro j hj hne
    have hjl : j < nm.row.length := by omega
    have hx : nm.row[j] ≠ [] := fun e => hne (by rw [List.getElem?_eq_getElem hjl, e])
    let nm' : Names := { nm with row := List.replicate n nm.row[j] }
    let s' : Set V := { s with names := some nm' }
    have hrect : s'.Rect n := ⟨h.vector, h.matrix, h.text, h.weights, h.some⟩
    have hnames : NamesOk o s' n := by
      refine Or.inr ⟨by simp [rowct, s', nm'], ?_, ⟨c, hc, hc0⟩, hvm⟩
      intro n' e
      simp only [s', Option.some.injEq] at e
      subst e
      simp only [nm']
      rw [List.mem_replicate]
      rintro ⟨_, e⟩
      exact hx e.symm
    have := fields_spec o s' n hrect hnames j hj
    have e1 : fields o s' j = fields o s j := by
      unfold fields
      simp only [s', hnm, nm']
      rw [List.getElem?_replicate, if_pos hj, List.getElem?_eq_getElem hjl]
    have e2 : rowOf o s' j = rowOf o s j := by
      unfold rowOf
      simp only [s', hnm, nm']
      rw [List.getElem?_replicate, if_pos hj, List.getElem?_eq_getElem hjl]
    have e3 : colCt s' = colCt s := by
      unfold colCt
      simp only [rowct, s', hnm, nm', List.length_replicate, hl]
    rw [e1, e2, e3] at this
    exact this
  have hbad : bindAll 1 (fields o s i) (List.replicate (colCt s) (Cell.null : Cell V)) = none := by
    -- the same row with a name that is not empty has `colCt s` fields
    have hil : i < nm.row.length := by omega
    let nm' : Names := { nm with row := List.replicate n [1] }
    let s' : Set V := { s with names := some nm' }
    have hrect : s'.Rect n := ⟨h.vector, h.matrix, h.text, h.weights, h.some⟩
    have hnames : NamesOk o s' n := by
      refine Or.inr ⟨by simp [rowct, s', nm'], ?_, ⟨c, hc, hc0⟩, hvm⟩
      intro n' e
      simp only [s', Option.some.injEq] at e
      subst e
      simp [nm']
    have hlen' := (fields_spec o s' n hrect hnames i hi).1
    have e3 : colCt s' = colCt s := by
      unfold colCt
      simp only [rowct, s', hnm, nm', List.length_replicate, hl]
    have hwl := h.weights w hw
    have hwi : w[i]? = some w[i] := List.getElem?_eq_getElem (by omega)
    rw [e3] at hlen'
    unfold fields at hlen'
    simp only [s', nm'] at hlen'
    rw [List.getElem?_replicate, if_pos hi, hw] at hlen'
    simp only [hwi] at hlen'
    rw [nameCells_ok _ (by simp)] at hlen'
    unfold fields
    rw [hnm, hw]
    simp only [hr, hwi]
    apply bindAll_over
    · simp only [List.length_append, List.length_cons, List.length_nil, nameCells, List.length_replicate, if_true] at hlen' ⊢
      omega
    · omega
  have hrun : insertRows o s name (colCt s) (maxsize s) 0 (d ++ [⟨name, false, columns o s, []⟩]) = (false, d ++ [⟨name, false, columns o s, (List.range i).map (rowOf o s)⟩]) := by
    have hfirst := insertRows_ok o s name (colCt s) i 0 (d ++ [⟨name, false, columns o s, []⟩]) (fun j _ hj => (hother j (by omega) (hb j (by omega))).1)
    have e : ((List.range i).map fun j => (fields o s (0 + j)).map (·.getD .null)) = (List.range i).map (rowOf o s) := by
      apply List.map_congr_left
      intro j hj
      have := List.mem_range.1 hj
      rw [Nat.zero_add, (hother j (by omega) (hb j this)).2]
    rw [e, append_new d name _ _ hf] at hfirst
    rw [maxsize_rect s n h, show n = i + ((n - i - 1) + 1) by omega, insertRows_add o s name (colCt s) i _ 0 _ _ hfirst, Nat.zero_add, insertRows, hbad]
  have hcr : create d name (columns o s) = d ++ [⟨name, false, columns o s, []⟩] := by
    have : columns o s ≠ [] := by intro e; rw [e] at hlen; simp at hlen; omega
    simp [create, hf, hd, this]
  unfold dataToDb
  simp only [tableExists, not_there d name hf, Option.getD_some, hcr, if_neg hct]
  have hpr : prepareOk (d ++ [⟨name, false, columns o s, []⟩]) name (colCt s) = true := by
    simp [prepareOk, find_new d name _ hf, hlen]
  simp only [Bool.false_eq_true, if_false, hpr, if_true]
  rw [hrun]

/-- **C107 (parts of unequal length) fails**: where a vector is shorter than the matrix, the elements of the matrix in the later rows are written one column too far to the left. -/
theorem C107_ragged_refuted (o : Opts V) (a b c : V) (name : CStr) :
    dataToDb o ⟨none, some [a], some ⟨1, [[b], [c]]⟩, none, 0, []⟩ name (some []) =
      (true, [⟨name, false, [str "vector", str "c0"], [[bindNum o a, bindNum o b], [bindNum o c, .null]]⟩]) := by
  have hd : distinct [str "vector", str "c0"] = true := by decide +kernel
  have hc : columns o (⟨none, some [a], some ⟨1, [[b], [c]]⟩, none, 0, []⟩ : Set V) = [str "vector", str "c0"] := by
    simp [columns, useRow, rowct, colName, Names.alloc, List.range_succ]
    decide +kernel
  unfold dataToDb
  simp [hc, create, hd, tableExists, find, colCt, rowct, prepareOk, caseEq_refl, maxsize, insertRows, fields, bindAll, insert]

/-- **C107 (weights alone) fails**: the weights' length is not looked at, so that a data set that has only weights gives a table without rows, and the result is 0. -/
theorem C107_weights_refuted (o : Opts V) (w : List V) (name : CStr) : dataToDb o ⟨none, none, none, some w, 0, []⟩ name (some []) = (true, [⟨name, false, [str "weights"], []⟩]) := by
  have hc : columns o (⟨none, none, none, some w, 0, []⟩ : Set V) = [str "weights"] := by simp [columns, useRow]
  unfold dataToDb
  simp [hc, create, distinct, tableExists, find, colCt, rowct, prepareOk, caseEq_refl, maxsize, insertRows]

/-- **C108.** For every database: the result is 1 exactly if there is a table or a view of just that name; without removal the database is as it was; with removal, it is the same without the table or view of that name, and a second call gives 0. Without a database the result is 0. -/
theorem C108_table_exists (d : Db V) (ok : Db.Ok d) (name : CStr) (remove : Bool) :
    ((tableExists (some d) name remove).1 = true ↔ ∃ t ∈ d, t.name = name) ∧
    (tableExists (some d) name false).2 = some d ∧
    (tableExists (some d) name true).2 = some (d.filter fun t => t.name ≠ name) ∧
    (tableExists (tableExists (some d) name true).2 name remove).1 = false ∧ tableExists (none : Option (Db V)) name remove = (false, none) := by
  have hthird : (tableExists (some d) name true).2 = some (d.filter fun t => t.name ≠ name) := by
    simp only [tableExists, Bool.true_and]
    congr 1
    split
    · rename_i hany
      obtain ⟨t, ht, hn⟩ := List.any_eq_true.1 hany
      simp at hn
      subst hn
      unfold drop
      apply List.filter_congr
      intro u hu
      by_cases e : u.name = t.name
      · simp [e, caseEq_refl]
      · have : caseEq u.name t.name = false := by
          cases hcs : caseEq u.name t.name with
          | false => rfl
          | true => exact absurd (congrArg Table.name (find_exact d ok t ht u hu hcs)) e
        simp [e, this]
    · rename_i hany
      symm
      rw [List.filter_eq_self]
      intro t ht
      have := List.any_eq_false.1 (Bool.not_eq_true _ ▸ hany) t ht
      simpa using this
  refine ⟨?_, ?_, hthird, ?_, rfl⟩
  · simp [tableExists]
  · simp [tableExists]
  · rw [hthird]
    simp [tableExists]

/-- **C108 (letter case) fails**: SQLite's names do not depend on case; `apop_table_exists` says 0 for a table whose name differs in case only, and does not remove it. -/
theorem C108_case_refuted (d : Db V) (name : CStr) (hno : ∀ u ∈ d, u.name ≠ name) (remove : Bool) : tableExists (some d) name remove = (false, some d) := by
  have : (d.any fun t => t.name == name) = false := List.any_eq_false.2 fun t ht => by simpa using hno t ht
  simp [tableExists, this]

/-- Printing with `w` puts the new table in the place of the old; with `a` it appends to it. -/
theorem C108_print (o : Opts V) (s : Set V) (n : Nat) (hp : 0 < n) (h : s.Rect n) (hn : NamesOk o s n) (hw : ∀ m, s.matrix = some m → 0 < m.width) (ht : s.text ≠ [] → 0 < s.textWidth)
    (d : Db V) (ok : Db.Ok d) (t : Table V) (htd : t ∈ d) :
    (distinct (columns o s) = true → print o s t.name (some 'w') (some d) = (d.filter fun u => u.name ≠ t.name) ++ [⟨t.name, false, columns o s, rowsOf o s n⟩]) ∧
    (t.view = false → t.cols.length = colCt s → print o s t.name (some 'a') (some d) = d.map fun u => if u.name = t.name then { u with rows := u.rows ++ rowsOf o s n } else u) := by
  constructor
  · intro hd
    have hf : find (d.filter fun u => u.name ≠ t.name) t.name = none := by
      unfold find
      rw [List.find?_eq_none]
      intro u hu hc
      have hm := List.mem_filter.1 hu
      have := find_exact d ok t htd u hm.1 hc
      simp [this] at hm
    unfold print
    simp only [Option.getD_some, if_true]
    rw [(C108_table_exists d ok t.name true).2.2.1, (C107_new_table o s n hp h hn hw ht t.name _ hf hd).1]
  · intro hv hl
    unfold print
    simp only [Option.getD_some]
    rw [if_neg (by decide), C107_append o s n hp h hn hw ht d ok t htd hv hl]

/-- **C108 (the default) fails**: the documentation says that appending is the default; if the letter is not given, what the table held is lost. -/
theorem C108_default_refuted (o : Opts V) (s : Set V) (name : CStr) (db : Option (Db V)) : print o s name none db = print o s name (some 'w') db := rfl

/-- **C108 (overwriting, letter case) fails**: if the table's name differs in case only, `w` does not overwrite it: the new rows are appended to the old. -/
theorem C108_case_overwrite_refuted (o : Opts V) (s : Set V) (n : Nat) (hp : 0 < n) (h : s.Rect n) (hn : NamesOk o s n) (hw : ∀ m, s.matrix = some m → 0 < m.width) (ht : s.text ≠ [] → 0 < s.textWidth)
    (d : Db V) (ok : Db.Ok d) (t : Table V) (htd : t ∈ d) (hv : t.view = false) (hl : t.cols.length = colCt s) (name : CStr) (hc : caseEq t.name name = true) (hno : t.name ≠ name) :
    print o s name (some 'w') (some d) = appendRows d name (rowsOf o s n) ∧ { t with rows := t.rows ++ rowsOf o s n } ∈ print o s name (some 'w') (some d) := by
  have hnone : ∀ u ∈ d, u.name ≠ name := by
    intro u hu e
    have := find_exact d ok t htd u hu (by rw [e, caseEq_comm]; exact hc)
    exact hno (by rw [← this, e])
  have hct := colCt_pos s n hp h hw ht
  have hf := find_some d ok t htd name hc
  have key : print o s name (some 'w') (some d) = appendRows d name (rowsOf o s n) := by
    unfold print
    simp only [Option.getD_some, if_true]
    rw [C108_case_refuted d name hnone true]
    unfold dataToDb
    simp only
    rw [C108_case_refuted d name hnone false]
    have hcr : create d name (columns o s) = d := by simp [create, hf]
    simp only [Option.getD_some, hcr, if_neg hct]
    simp only [Bool.false_eq_true, if_false]
    rw [if_pos (by simp [prepareOk, hf, hv, hl]), insert_rect o s n h hn]
  refine ⟨key, ?_⟩
  rw [key]
  unfold appendRows
  exact List.mem_map.2 ⟨t, htd, by simp [hc]⟩

/-- A data set with a vector, a matrix, text, weights and row names meets the hypotheses. -/
example : Set.Rect (⟨some { Names.alloc with row := [str "a", str "b"] }, some [1, 2], some ⟨1, [[3], [4]]⟩, some [5, 6], 1, [[str "x"], [[]]]⟩ : Set Nat) 2 ∧
    NamesOk (⟨some (str "row_names"), none, fun _ => false⟩ : Opts Nat) ⟨some { Names.alloc with row := [str "a", str "b"] }, some [1, 2], some ⟨1, [[3], [4]]⟩, some [5, 6], 1, [[str "x"], [[]]]⟩ 2 := by
  constructor
  · constructor
    · intro v hv; simp at hv; subst hv; rfl
    · intro m hm; simp at hm; subst hm; exact ⟨rfl, by simp⟩
    · left; exact ⟨rfl, by simp⟩
    · intro v hv; simp at hv; subst hv; rfl
    · left; rfl
  · right
    have ha : ([] : CStr) ≠ str "a" := by decide +kernel
    have hb : ([] : CStr) ≠ str "b" := by decide +kernel
    refine ⟨rfl, ?_, ⟨str "row_names", rfl, by decide +kernel⟩, Or.inl rfl⟩
    intro nm h
    simp at h
    subst h
    simp [ha, hb]

end Apop.Db.ToDb
