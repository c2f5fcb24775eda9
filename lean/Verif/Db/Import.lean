import Verif.Db.ToDb
import Verif.Parse.Quote
import Verif.Parse.Files
import Mathlib.Tactic.SplitIfs

/-! # C178: a text file to a table: `apop_text_to_db`

What the database holds after the call, for every file, set of options and database. How the bytes of the file are read to records is in `Verif.Parse`; here the records go to the table. SQLite is taken by what it is documented to do. -/

namespace Apop.Db.Import
open Apop.Db.ToDb (Cell)
open Apop.Parse (Strtod)

/-- A column as it is declared: its name, and what is after it (type, constraint). -/
structure Col where
  name : CStr
  decl : CStr
  deriving DecidableEq, Repr

/-- A table, or a view; `params` are the table constraints. -/
structure Table (V : Type) where
  name : CStr
  view : Bool := false
  cols : List Col
  params : Option CStr := none
  rows : List (List (Cell V))
  deriving DecidableEq

/-- A database. That no database is open is `[]`: `apop_query` opens an empty one in memory (apop_db.m4.c:197). -/
abbrev Db (V : Type) := List (Table V)

variable {V : Type}

/-! ## What SQLite does -/

/-- SQLite, as far as it is not said below. -/
structure Sql (V : Type) where
  /-- Does `create table` accept the name, the columns and the table constraints? -/
  valid : CStr → List Col → Option CStr → Bool
  /-- What a column so declared has if this text is bound (the type's affinity). -/
  store : CStr → CStr → Cell V
  /-- What a column so declared has for this expression in an `insert`; `none` is an error. -/
  value : CStr → CStr → Option (Cell V)
  /-- Do the constraints let this row in? -/
  allows : Table V → List (Cell V) → Bool

/-- The table or view an SQL command with this name is about: names are the same up to case. -/
def find (db : Db V) (name : CStr) : Option (Table V) := db.find? fun t => caseEq t.name name

/-- The same change to the tables of this name. -/
def onTable (db : Db V) (name : CStr) (f : Table V → Table V) : Db V := db.map fun t => if caseEq t.name name then f t else t

/-- Is it a table (not a view)? -/
def isTable (db : Db V) (name : CStr) : Bool :=
  match find db name with
  | none => false
  | some t => !t.view

/-- `drop table`: an error, and nothing done, for a view. -/
def dropTable (db : Db V) (name : CStr) : Db V := if isTable db name then db.filter fun t => !caseEq t.name name else db

/-- `delete from`: the same. -/
def deleteRows (db : Db V) (name : CStr) : Db V := if isTable db name then onTable db name fun t => { t with rows := [] } else db

/-- `create table`: an error if there is one of the name, or the definition isn't valid. -/
def create (sql : Sql V) (db : Db V) (name : CStr) (cols : List Col) (params : Option CStr) : Db V :=
  if (find db name).isSome || !sql.valid name cols params then db else db ++ [{ name := name, cols := cols, params := params, rows := [] }]

/-- One more row. -/
def addRow (db : Db V) (name : CStr) (row : List (Cell V)) : Db V := onTable db name fun t => { t with rows := t.rows ++ [row] }

/-- Can `insert into name values (?, .., ?)` with so many blanks be prepared? Not for views, nor if the table has another number of columns. -/
def prepareOk (db : Db V) (name : CStr) (ct : Nat) : Bool :=
  match find db name with
  | none => false
  | some t => !t.view && t.cols.length == ct

/-! ## The code -/

/-- What the call depends on beside its arguments: `strtod`, `apop_opts.nan_string` and `regcomp`/`regexec` (`none`: does not compile). -/
structure Opts where
  st : Strtod
  nan : Option CStr
  regex : CStr → Option (CStr → Bool)

/-- The arguments, but the file's. -/
structure Args where
  tab : CStr
  hasRow : Bool := false
  header : Bool := true
  given : Option (List CStr) := none
  fieldParams : List (CStr × CStr) := []
  tableParams : Option CStr := none
  ifExists : Char := 'n'

/-- `if (apop_regex(var, ..))`: zero if there is no match, one if there is, and −1, which is true too, if the expression does not compile (apop_asst.m4.c:265, 302). -/
def regexTrue (o : Opts) (re var : CStr) : Bool :=
  match o.regex re with
  | none => true
  | some f => f var

/-- `get_field_conditions`, apop_conversions.m4.c:945-951, with SQLite. -/
def conditions (o : Opts) (var : CStr) : List (CStr × CStr) → CStr
  | [] => str "numeric"
  | (re, what) :: ps => if regexTrue o re var then what else conditions o var ps

/-- The text before a column's name, lines 974-977; `prev` is the name before. -/
def openCol (cond : CStr → CStr) (hasRow : Bool) (prev : Option CStr) : CStr :=
  match prev with
  | none => if hasRow then str " ('row_names', " else str " ("
  | some p => str "' " ++ cond p ++ str ", "

/-- The end, lines 980-981. -/
def closeTable (cond : CStr → CStr) (params : Option CStr) (p : CStr) : CStr :=
  str "' " ++ cond p ++ (match params with | none => [] | some x => str ", " ++ x) ++ str ");"

/-- The loop of `tab_create_sqlite`, lines 973-979. -/
def createLoop (cond : CStr → CStr) (hasRow : Bool) (params : Option CStr) : Option CStr → List CStr → CStr → Res CStr
  | prev, n :: ns, q => createLoop cond hasRow params (some n) ns (q ++ openCol cond hasRow prev ++ str " '" ++ n)
  | some p, [], q => .ok (q ++ closeTable cond params p)
  | none, [], _ => .ub

/-- The query of `tab_create_sqlite`, lines 970-982. -/
def createText (o : Opts) (a : Args) (fn : List CStr) : Res CStr :=
  createLoop (fun v => conditions o v a.fieldParams) a.hasRow a.tableParams none fn (str "create table " ++ a.tab)

/-- The columns of that query. -/
def columns (o : Opts) (a : Args) (fn : List CStr) : List Col :=
  (if a.hasRow then [⟨str "row_names", []⟩] else []) ++ fn.map fun n => ⟨n, conditions o n a.fieldParams⟩

/-- `get_field_names`, lines 566-580: from the header, from the argument (as many as the first line has fields: the array may be too short), or made up. -/
def fieldNames (a : Args) (names first : List CStr) : Res (List CStr) :=
  match a.given with
  | some g => if first.length ≤ g.length then .ok (g.take first.length) else .ub
  | none => if a.header then .ok names else .ok ((List.range first.length).map fun i => str (s!"col_{i}"))

/-- The blanks of the prepared statement after `line_to_insert`, lines 1029-1037: fields that are missing leave NULL, and what is beyond the last blank is an error and ignored. -/
def bindFields (o : Opts) : Nat → List CStr → List (Option CStr) → List (Option CStr)
  | _, [], b => b
  | f, s :: ss, b =>
    match Parse.prepString o.st o.nan true s with
    | none => bindFields o (f + 1) ss b
    | some p => bindFields o (f + 1) ss (if p = [] then b else b.set f (some p))

/-- A cell from a blank. -/
def cellOf (sql : Sql V) (c : Col) (b : Option CStr) : Cell V :=
  match b with
  | none => .null
  | some p => sql.store c.decl p

/-- The row a line gives, in a table with these columns. -/
def boundRow (sql : Sql V) (o : Opts) (cols : List Col) (fields : List CStr) : List (Cell V) :=
  List.zipWith (cellOf sql) cols (bindFields o 0 fields (List.replicate cols.length none))

/-- The main loop with a prepared statement, lines 1176-1193: stops with −1 at a row that SQLite refuses. -/
def runPrepared (sql : Sql V) (o : Opts) (tab : CStr) : List (List CStr) → Db V → Bool × Db V
  | [], db => (true, db)
  | r :: rs, db =>
    match find db tab with
    | none => (false, db)
    | some t => if sql.allows t (boundRow sql o t.cols r) then runPrepared sql o tab rs (addRow db tab (boundRow sql o t.cols r)) else (false, db)

/-- One field in an `insert` that is written out, line 1039. -/
def literal (o : Opts) (s : CStr) : CStr := (Parse.prepString o.st o.nan false s).getD (str " NULL")

/-- The values of the columns; `none` is an error: a value that is not valid, or not as many as columns. -/
def values (sql : Sql V) : List Col → List CStr → Option (List (Cell V))
  | [], [] => some []
  | c :: cs, s :: ss =>
    match sql.value c.decl s, values sql cs ss with
    | some v, some vs => some (v :: vs)
    | _, _ => none
  | _, _ => none

/-- `insert into tab values (..)`, written out; an error changes nothing and is not looked at (line 1045). -/
def insertText (sql : Sql V) (o : Opts) (tab : CStr) (db : Db V) (r : List CStr) : Db V :=
  match find db tab with
  | none => db
  | some t =>
    match values sql t.cols (r.map (literal o)) with
    | none => db
    | some row => if !t.view && sql.allows t row then addRow db tab row else db

/-- The insertions, with a prepared statement if there are up to 999 columns (lines 1050-1059, 1171-1193): the return value and the database. -/
def fill (sql : Sql V) (o : Opts) (tab : CStr) (recs : List (List CStr)) (ct ret : Nat) (db : Db V) : Int × Db V :=
  if ct ≤ 999 then
    if prepareOk db tab ct then
      let r := runPrepared sql o tab recs db
      (if r.1 then ret else -1, r.2)
    else (-1, db)
  else (ret, recs.foldl (insertText sql o tab) db)

/-- From the table's creation, lines 1161-1202. -/
def load (sql : Sql V) (o : Opts) (a : Args) (there : Bool) (fn : List CStr) (recs : List (List CStr)) (ct ret : Nat) (db : Db V) : Int × Db V :=
  if there then fill sql o a.tab recs ct ret db
  else
    let db := create sql db a.tab (columns o a fn) a.tableParams
    if db.any fun t => t.name == a.tab then fill sql o a.tab recs ct ret db else (-1, db)

/-- What is done to a table that is there, lines 1146-1152. -/
def clear (a : Args) (db : Db V) : Db V :=
  if a.ifExists = 'd' then deleteRows db a.tab
  else if a.ifExists = 'o' then dropTable db a.tab
  else db

/-- `apop_text_to_db`, lines 1119-1202, with SQLite. `file`: `none` if it can't be opened, else the names in the header (if one is read), the records and the number `rows` at the end, as in `Parse.textToDb`. `apop_table_exists` compares names byte by byte (apop_db.m4.c:118). Simplified: reading and inserting are done by turns in the code, but neither depends on the other, except that reading stops if a row is refused. -/
def textToDb (sql : Sql V) (o : Opts) (a : Args) (file : Option (List CStr × List (List CStr) × Nat)) (db : Db V) : Res (Int × Db V) :=
  let there := db.any fun t => t.name == a.tab
  if there && a.ifExists = 'n' then .ok (-1, db)
  else
    let db := if there then clear a db else db
    match file with
    | none => .ok (-1, db)
    | some (_, [], _) => .ok (-1, db)
    | some (names, first :: recs, ret) =>
      match fieldNames a names first with
      | .ub => .ub
      | .ok [] => .ub
      | .ok fn => .ok (load sql o a (there && a.ifExists ≠ 'o') fn (first :: recs) first.length ret db)

/-- After the last slash: `basename` of a path that does not end in a slash (line 1077). -/
def basename (p : CStr) : CStr := (p.reverse.takeWhile (· != 47)).reverse

/-- `cut_at_dot`, lines 1075-1082: the default name of the table. -/
def cutAtDot (p : CStr) : CStr := (basename p).takeWhile (· != 46)

/-! ## Specification -/

/-- Not missing: neither empty nor the NaN string in any case. -/
def Missing (o : Opts) (s : CStr) : Prop := s = [] ∨ ∃ n, o.nan = some n ∧ caseEq n s = true

open Classical in
/-- What a cell has for a field of the file: NULL if it is missing, and otherwise what the column's type makes of the text, where infinities, NaN and numbers without a leading zero are written in SQLite's way. -/
noncomputable def cellFor (sql : Sql V) (o : Opts) (c : Col) (s : CStr) : Cell V :=
  if Missing o s then .null
  else sql.store c.decl (if o.st.used s = s.length then Parse.prepNumber o.st s else s)

/-- The row for a line: cell by cell; what a short line lacks is NULL. -/
noncomputable def rowFor (sql : Sql V) (o : Opts) (cols : List Col) (fields : List CStr) : List (Cell V) :=
  cols.mapIdx fun i c => match fields[i]? with | none => .null | some s => cellFor sql o c s

/-- The rows can be put in one after the other. -/
def Allowed (sql : Sql V) (t : Table V) : List (List (Cell V)) → Prop
  | [] => True
  | r :: rs => sql.allows t r = true ∧ Allowed sql { t with rows := t.rows ++ [r] } rs

/-- No two tables have the same name up to case, as in every SQLite database. -/
def Ok (db : Db V) : Prop := db.Pairwise fun a b => caseEq a.name b.name = false

/-- The other tables and views are as they were. -/
def OthersSame (tab : CStr) (db db' : Db V) : Prop := ∀ n, caseEq tab n = false → find db' n = find db n

/-! ## Lemmas -/

theorem find_onTable (db : Db V) (name m : CStr) (f : Table V → Table V) (hf : ∀ t, (f t).name = t.name) :
    find (onTable db name f) m = if caseEq name m then (find db m).map f else find db m := by
  unfold find onTable
  induction db with
  | nil => simp
  | cons t db ih =>
    rw [List.map_cons, List.find?_cons, List.find?_cons]
    have hn : (if caseEq t.name name then f t else t).name = t.name := by split_ifs <;> simp [hf]
    rw [hn]
    cases htm : caseEq t.name m with
    | false => simpa using ih
    | true =>
      have : caseEq name m = caseEq t.name name := by
        have e := caseEq_iff.mp htm
        simp only [caseEq, e, Bool.beq_comm]
      simp only [this]
      split_ifs <;> simp

theorem find_drop (db : Db V) (name m : CStr) :
    find (db.filter fun t => !caseEq t.name name) m = if caseEq name m then none else find db m := by
  unfold find
  induction db with
  | nil => simp
  | cons t db ih =>
    rw [List.filter_cons, List.find?_cons]
    cases htn : caseEq t.name name with
    | true =>
      simp only [Bool.not_true, Bool.false_eq_true, if_false]
      rw [ih]
      have : caseEq name m = caseEq t.name m := by have e := caseEq_iff.mp htn; simp only [caseEq, e]
      rw [this]
      cases caseEq t.name m <;> simp
    | false =>
      simp only [Bool.not_false, if_true]
      rw [List.find?_cons, ih]
      cases htm : caseEq t.name m with
      | false => rfl
      | true =>
        have : caseEq name m = false := by
          have e := caseEq_iff.mp htm
          rw [← htn, caseEq_comm]
          simp only [caseEq, e]
        simp [this]

theorem find_append (db : Db V) (t : Table V) (m : CStr) : find (db ++ [t]) m = (find db m).or (if caseEq t.name m then some t else none) := by
  unfold find
  rw [List.find?_append]
  congr 1
  simp only [List.find?_cons, List.find?_nil]
  cases caseEq t.name m <;> rfl

theorem find_caseEq (db : Db V) {a b : CStr} (h : caseEq a b = true) : find db a = find db b := by
  unfold find
  congr 1
  funext t
  have e := caseEq_iff.mp h
  simp only [caseEq, e]

theorem any_of_find {db : Db V} {t : Table V} (h : find db t.name = some t) : (db.any fun u => u.name == t.name) = true :=
  List.any_eq_true.mpr ⟨t, List.mem_of_find?_eq_some h, by simp⟩

theorem any_of_none {db : Db V} {tab : CStr} (h : find db tab = none) : (db.any fun u => u.name == tab) = false := by
  rw [List.any_eq_false]
  intro u hu e
  have := List.find?_eq_none.mp h u hu
  rw [beq_iff_eq.mp e, caseEq_refl] at this
  exact this rfl

theorem prep_cases (o : Opts) (s : CStr) :
    Parse.prepString o.st o.nan true s = none ∧ Missing o s ∨
    ∃ p, Parse.prepString o.st o.nan true s = some p ∧ p ≠ [] ∧ ¬Missing o s ∧ p = (if o.st.used s = s.length then Parse.prepNumber o.st s else s) := by
  have hm : (s = [] ∨ Parse.isNan o.nan s = true) ↔ Missing o s := by
    unfold Missing Parse.isNan
    cases o.nan <;> simp
  unfold Parse.prepString
  by_cases h : s = [] ∨ Parse.isNan o.nan s = true
  · left; exact ⟨if_pos h, hm.mp h⟩
  · right
    rw [if_neg h]
    have hs : s ≠ [] := fun e => h (.inl e)
    by_cases hu : o.st.used s = s.length
    · refine ⟨_, by rw [if_neg (by simpa using hu)], ?_, fun x => h (hm.mpr x), by rw [if_pos hu]⟩
      unfold Parse.prepNumber
      cases o.st.cls s with
      | inf => show str _ ≠ []; decide +kernel
      | ninf => show str _ ≠ []; decide +kernel
      | nan => show str _ ≠ []; decide +kernel
      | other => simp only; split_ifs <;> simp [hs]
    · refine ⟨s, by rw [if_pos hu]; rfl, hs, fun x => h (hm.mpr x), by rw [if_neg hu]⟩

theorem bindFields_length (o : Opts) : ∀ (ss : List CStr) (f : Nat) (b : List (Option CStr)), (bindFields o f ss b).length = b.length
  | [], _, _ => rfl
  | s :: ss, f, b => by
    rw [bindFields]
    cases Parse.prepString o.st o.nan true s with
    | none => exact bindFields_length o ss _ _
    | some p => simp only []; rw [bindFields_length o ss]; split_ifs <;> simp

/-- The blank `i`. -/
theorem bindFields_get (o : Opts) : ∀ (ss : List CStr) (f i : Nat) (b : List (Option CStr)), i < b.length → (∀ j, f ≤ j → j < b.length → b[j]? = some none) →
    (bindFields o f ss b)[i]? = some (if i < f then (b[i]?).join else (ss[i - f]?).bind (Parse.prepString o.st o.nan true))
  | [], f, i, b, hi, hb => by
    rw [bindFields]
    by_cases h : i < f
    · simp [h, hi]
    · rw [hb i (by omega) hi]; simp [h]
  | s :: ss, f, i, b, hi, hb => by
    rw [bindFields]
    have key : ∀ x : Option CStr, Parse.prepString o.st o.nan true s = x → (bindFields o (f + 1) ss (b.set f x))[i]? = some (if i < f then (b[i]?).join else ((s :: ss)[i - f]?).bind (Parse.prepString o.st o.nan true)) := by
      intro x hx
      rw [bindFields_get o ss (f + 1) i _ (by simpa using hi) (by
        intro j hj hj2
        rw [List.getElem?_set_ne (by omega)]
        exact hb j (by omega) (by simpa using hj2))]
      congr 1
      by_cases h1 : i < f
      · rw [if_pos (by omega), if_pos h1, List.getElem?_set_ne (by omega)]
      · by_cases h2 : i = f
        · subst h2
          rw [if_pos (by omega), if_neg h1, List.getElem?_set_self hi]
          simp [hx]
        · rw [if_neg (by omega), if_neg h1]
          have : i - f = (i - (f + 1)) + 1 := by omega
          rw [this, List.getElem?_cons_succ]
    rcases prep_cases o s with ⟨h, -⟩ | ⟨p, h, hp, -, -⟩
    · rw [h]
      have := key none h
      by_cases hf : f < b.length
      · rw [show b.set f none = b from by
          apply List.ext_getElem?
          intro j
          by_cases hj : f = j
          · subst hj; rw [List.getElem?_set_self hf, hb f (Nat.le_refl _) hf]
          · rw [List.getElem?_set_ne hj]] at this
        exact this
      · rw [List.set_eq_of_length_le (by omega)] at this
        exact this
    · rw [h]
      simp only [if_neg hp]
      exact key _ h

theorem boundRow_eq (sql : Sql V) (o : Opts) (cols : List Col) (fields : List CStr) : boundRow sql o cols fields = rowFor sql o cols fields := by
  apply List.ext_getElem?
  intro i
  unfold boundRow rowFor
  rw [List.getElem?_zipWith, List.getElem?_mapIdx]
  by_cases hi : i < cols.length
  · rw [bindFields_get o fields 0 i _ (by simpa using hi) (by intro j _ hj; simp only [List.length_replicate] at hj; simp [hj])]
    rw [List.getElem?_eq_getElem hi]
    simp only [Nat.not_lt_zero, if_false, Nat.sub_zero, Option.map_some]
    cases hf : fields[i]? with
    | none => simp [cellOf]
    | some s =>
      simp only [Option.bind_some]
      rcases prep_cases o s with ⟨h, hm⟩ | ⟨p, h, -, hm, hp⟩
      · rw [h]; simp [cellOf, cellFor, hm]
      · rw [h]; simp only [cellOf, cellFor, hm, if_false, hp]
  · rw [List.getElem?_eq_none (by omega)]
    simp

theorem othersSame_refl (tab : CStr) (db : Db V) : OthersSame tab db db := fun _ _ => rfl

theorem othersSame_trans {tab : CStr} {a b c : Db V} (h : OthersSame tab a b) (h' : OthersSame tab b c) : OthersSame tab a c :=
  fun n hn => (h' n hn).trans (h n hn)

theorem find_addRow {db : Db V} {tab : CStr} {t : Table V} (h : find db tab = some t) (row : List (Cell V)) :
    find (addRow db tab row) tab = some { t with rows := t.rows ++ [row] } := by
  unfold addRow
  rw [find_onTable _ _ _ _ (by intro t; rfl), if_pos (caseEq_refl _), h]
  rfl

theorem others_onTable (db : Db V) (tab : CStr) (f : Table V → Table V) (hf : ∀ t, (f t).name = t.name) : OthersSame tab db (onTable db tab f) := by
  intro n hn
  rw [find_onTable _ _ _ _ hf, hn]
  simp

theorem others_addRow (db : Db V) (tab : CStr) (row : List (Cell V)) : OthersSame tab db (addRow db tab row) := by
  unfold addRow
  exact others_onTable db tab _ (by intro t; rfl)

/-- The loop: it puts in the rows up to the first that is refused. -/
theorem runPrepared_spec (sql : Sql V) (o : Opts) (tab : CStr) : ∀ (recs : List (List CStr)) (db : Db V) (t : Table V), find db tab = some t →
    ∃ k, k ≤ recs.length ∧ find (runPrepared sql o tab recs db).2 tab = some { t with rows := t.rows ++ (recs.take k).map (rowFor sql o t.cols) } ∧
      OthersSame tab db (runPrepared sql o tab recs db).2 ∧ Allowed sql t ((recs.take k).map (rowFor sql o t.cols)) ∧
      ((runPrepared sql o tab recs db).1 = true ↔ k = recs.length) ∧ (k < recs.length → ¬Allowed sql t ((recs.take (k + 1)).map (rowFor sql o t.cols)))
  | [], db, t, h => ⟨0, Nat.le_refl _, by simpa [runPrepared] using h, othersSame_refl _ _, trivial, by simp [runPrepared], by simp⟩
  | r :: rs, db, t, h => by
    rw [runPrepared, h]
    simp only [boundRow_eq]
    by_cases ha : sql.allows t (rowFor sql o t.cols r) = true
    · rw [if_pos ha]
      obtain ⟨k, h1, h2, h3, h4, h5, h6⟩ := runPrepared_spec sql o tab rs _ _ (find_addRow h (rowFor sql o t.cols r))
      refine ⟨k + 1, by simpa using h1, ?_, othersSame_trans (others_addRow _ _ _) h3, ?_, ?_, ?_⟩
      · rw [h2]; simp
      · rw [List.take_succ_cons, List.map_cons]; exact ⟨ha, h4⟩
      · rw [h5]; simp
      · intro hk hx
        rw [List.take_succ_cons, List.map_cons] at hx
        exact h6 (by simpa using hk) hx.2
    · rw [if_neg ha]
      refine ⟨0, Nat.zero_le _, by simpa using h, othersSame_refl _ _, trivial, by simp, ?_⟩
      intro _ hx
      rw [List.take_succ_cons, List.map_cons] at hx
      exact ha hx.1

theorem allowed_take (sql : Sql V) : ∀ (rows : List (List (Cell V))) (t : Table V) (k : Nat), Allowed sql t rows → Allowed sql t (rows.take k)
  | [], _, k, _ => by simp [Allowed]
  | r :: rs, t, 0, _ => trivial
  | r :: rs, t, k + 1, h => ⟨h.1, allowed_take sql rs _ k h.2⟩

/-! ## What is said -/

/-- The names the columns get: those given (the first, as many as the first line has fields), those in the header, or col_0, col_1, … -/
def Named (a : Args) (names first fn : List CStr) : Prop :=
  match a.given with
  | some g => first.length ≤ g.length ∧ fn = g.take first.length
  | none => if a.header then fn = names else fn.length = first.length ∧ ∀ i, i < first.length → fn[i]? = some (str s!"col_{i}")

/-- `k` is where the insertion stops: all rows are in, or the next is refused. -/
def Upto (sql : Sql V) (t : Table V) (rows : List (List (Cell V))) (k : Nat) : Prop :=
  k ≤ rows.length ∧ Allowed sql t (rows.take k) ∧ (k < rows.length → ¬Allowed sql t (rows.take (k + 1)))

/-- The records go to the table `t0`: the rows before, then one for each record in order, up to the first that the constraints refuse, if any; then the result is −1. No other table or view is touched. -/
def Loads (sql : Sql V) (o : Opts) (tab : CStr) (db : Db V) (t0 : Table V) (recs : List (List CStr)) (ret : Nat) (out : Res (Int × Db V)) : Prop :=
  ∃ k db', out = .ok (if k = recs.length then (ret : Int) else -1, db') ∧ Upto sql t0 (recs.map (rowFor sql o t0.cols)) k ∧
    find db' tab = some { t0 with rows := t0.rows ++ (recs.take k).map (rowFor sql o t0.cols) } ∧ OthersSame tab db db'

/-- If nothing is refused all records are in the table and the result is `ret`. -/
theorem Loads.all {sql : Sql V} {o : Opts} {tab : CStr} {db : Db V} {t0 : Table V} {recs : List (List CStr)} {ret : Nat} {out : Res (Int × Db V)}
    (h : Loads sql o tab db t0 recs ret out) (ha : Allowed sql t0 (recs.map (rowFor sql o t0.cols))) :
    ∃ db', out = .ok ((ret : Int), db') ∧ find db' tab = some { t0 with rows := t0.rows ++ recs.map (rowFor sql o t0.cols) } ∧ OthersSame tab db db' := by
  obtain ⟨k, db', h1, ⟨h2, -, h3⟩, h4, h5⟩ := h
  have hk : k = recs.length := by
    apply Decidable.byContradiction
    intro hne
    simp only [List.length_map] at h2 h3
    exact h3 (by omega) (allowed_take _ _ _ _ ha)
  subst hk
  exact ⟨db', by simpa using h1, by simpa using h4, h5⟩

theorem fill_loads (sql : Sql V) (o : Opts) (tab : CStr) (recs : List (List CStr)) (ct ret : Nat) (db0 db : Db V) (t : Table V) (h : find db tab = some t) (hv : t.view = false)
    (hw : t.cols.length = ct) (h999 : ct ≤ 999) (ho : OthersSame tab db0 db) : Loads sql o tab db0 t recs ret (.ok (fill sql o tab recs ct ret db)) := by
  obtain ⟨k, h1, h2, h3, h4, h5, h6⟩ := runPrepared_spec sql o tab recs db t h
  refine ⟨k, (runPrepared sql o tab recs db).2, ?_, ⟨by simpa using h1, by rwa [← List.map_take], ?_⟩, h2, othersSame_trans ho h3⟩
  · unfold fill
    rw [if_pos h999, if_pos (by simp [prepareOk, h, hv, hw])]
    simp only [h5]
  · intro hk
    rw [← List.map_take]
    exact h6 (by simpa using hk)

theorem fieldNames_named {a : Args} {names first fn : List CStr} (h : Named a names first fn) : fieldNames a names first = .ok fn := by
  unfold Named at h
  unfold fieldNames
  cases hg : a.given with
  | some g => rw [hg] at h; simp only [] at h ⊢; rw [if_pos h.1, h.2]
  | none =>
    rw [hg] at h
    simp only [] at h ⊢
    cases hh : a.header with
    | true => rw [hh] at h; simp only [if_true] at h ⊢; rw [h]
    | false =>
      rw [hh] at h
      simp only [Bool.false_eq_true, if_false] at h ⊢
      congr 1
      apply List.ext_getElem?
      intro i
      by_cases hi : i < first.length
      · rw [h.2 i hi]; simp [hi]
      · rw [List.getElem?_eq_none (by simpa using hi), List.getElem?_eq_none (by omega)]

theorem columns_length (o : Opts) (a : Args) (fn : List CStr) : (columns o a fn).length = fn.length + if a.hasRow then 1 else 0 := by
  unfold columns
  split_ifs <;> simp [Nat.add_comm]

/-- The table as it is created. -/
def newTable (o : Opts) (a : Args) (fn : List CStr) : Table V := { name := a.tab, cols := columns o a fn, params := a.tableParams, rows := [] }

theorem load_new (sql : Sql V) (o : Opts) (a : Args) (fn : List CStr) (recs : List (List CStr)) (ct ret : Nat) (db0 db : Db V) (hf : find db a.tab = none)
    (hv : sql.valid a.tab (columns o a fn) a.tableParams = true) (hw : ct = fn.length + if a.hasRow then 1 else 0) (h999 : ct ≤ 999) (ho : OthersSame a.tab db0 db) :
    Loads sql o a.tab db0 (newTable o a fn) recs ret (.ok (load sql o a false fn recs ct ret db)) := by
  unfold load
  simp only [Bool.false_eq_true, if_false]
  have hc : create sql db a.tab (columns o a fn) a.tableParams = db ++ [newTable o a fn] := by
    unfold create
    rw [hf, hv]
    rfl
  rw [hc]
  have hfind : find (db ++ [newTable o a fn]) a.tab = some (newTable o a fn) := by
    rw [find_append, hf]
    simp [newTable, caseEq_refl]
  have hany : ((db ++ [newTable o a fn]).any fun t => t.name == a.tab) = true := any_of_find (t := newTable o a fn) hfind
  rw [if_pos hany]
  refine fill_loads sql o a.tab recs ct ret db0 _ _ hfind rfl (by rw [hw]; exact columns_length o a fn) h999 ?_
  refine othersSame_trans ho ?_
  intro n hn
  rw [find_append]
  simp [newTable, hn]

/-- A call that gets to the records. -/
theorem textToDb_load (sql : Sql V) (o : Opts) (a : Args) (names first fn : List CStr) (recs : List (List CStr)) (ret : Nat) (db : Db V) (hn : Named a names first fn) (hne : fn ≠ [])
    (hc : ((db.any fun t => t.name == a.tab) && a.ifExists = 'n') = false) :
    textToDb sql o a (some (names, first :: recs, ret)) db =
      .ok (load sql o a ((db.any fun t => t.name == a.tab) && a.ifExists ≠ 'o') fn (first :: recs) first.length ret (if db.any fun t => t.name == a.tab then clear a db else db)) := by
  unfold textToDb
  simp only []
  rw [if_neg (by simpa using hc), fieldNames_named hn]
  cases fn with
  | nil => exact absurd rfl hne
  | cons f fs => rfl

/-! ## The theorems -/

/-- **C178: a new table.** If there is no table or view of the name (in any case), SQLite accepts the definition and the first line has as many fields as there are columns (up to 999), the table is created, with its columns named and declared as asked, and has one row for each record, cell by cell; of longer lines what is too much is left out, what shorter lines lack is NULL. -/
theorem C178_new (sql : Sql V) (o : Opts) (a : Args) (names first fn : List CStr) (recs : List (List CStr)) (ret : Nat) (db : Db V) (hn : Named a names first fn) (hne : fn ≠ [])
    (hf : find db a.tab = none) (hv : sql.valid a.tab (columns o a fn) a.tableParams = true) (hw : first.length = fn.length + if a.hasRow then 1 else 0) (h999 : first.length ≤ 999) :
    Loads sql o a.tab db { name := a.tab, cols := columns o a fn, params := a.tableParams, rows := [] } (first :: recs) ret (textToDb sql o a (some (names, first :: recs, ret)) db) := by
  have hany := any_of_none hf
  rw [textToDb_load sql o a names first fn recs ret db hn hne (by simp [hany])]
  simp only [hany, Bool.false_and, Bool.false_eq_true, if_false]
  exact load_new sql o a fn _ _ ret db db hf hv hw h999 (othersSame_refl _ _)

/-- **C178: append**, and any letter that has no meaning: the new rows come after those that were there. -/
theorem C178_append (sql : Sql V) (o : Opts) (a : Args) (names first fn : List CStr) (recs : List (List CStr)) (ret : Nat) (db : Db V) (t : Table V) (hn : Named a names first fn) (hne : fn ≠ [])
    (hf : find db a.tab = some t) (ht : t.name = a.tab) (hv : t.view = false) (h1 : a.ifExists ≠ 'n') (h2 : a.ifExists ≠ 'd') (h3 : a.ifExists ≠ 'o') (hw : first.length = t.cols.length) (h999 : first.length ≤ 999) :
    Loads sql o a.tab db t (first :: recs) ret (textToDb sql o a (some (names, first :: recs, ret)) db) := by
  have hany : (db.any fun u => u.name == a.tab) = true := by rw [← ht] at hf ⊢; exact any_of_find hf
  rw [textToDb_load sql o a names first fn recs ret db hn hne (by simp [h1])]
  simp only [hany, Bool.true_and, if_true, clear, if_neg h2, if_neg h3]
  rw [show decide (a.ifExists ≠ 'o') = true from by simp [h3]]
  exact fill_loads sql o a.tab _ _ ret db db t hf hv hw.symm h999 (othersSame_refl _ _)

/-- **C178: delete and refill**: the table keeps its columns and has the new rows only. -/
theorem C178_delete (sql : Sql V) (o : Opts) (a : Args) (names first fn : List CStr) (recs : List (List CStr)) (ret : Nat) (db : Db V) (t : Table V) (hn : Named a names first fn) (hne : fn ≠ [])
    (hf : find db a.tab = some t) (ht : t.name = a.tab) (hv : t.view = false) (h1 : a.ifExists = 'd') (hw : first.length = t.cols.length) (h999 : first.length ≤ 999) :
    Loads sql o a.tab db { t with rows := [] } (first :: recs) ret (textToDb sql o a (some (names, first :: recs, ret)) db) := by
  have hany : (db.any fun u => u.name == a.tab) = true := by rw [← ht] at hf ⊢; exact any_of_find hf
  rw [textToDb_load sql o a names first fn recs ret db hn hne (by simp [h1])]
  simp only [hany, Bool.true_and, if_true, clear, if_pos h1]
  rw [show decide (a.ifExists ≠ 'o') = true from by simp [h1]]
  have hd : deleteRows db a.tab = onTable db a.tab fun t => { t with rows := [] } := by
    unfold deleteRows
    rw [if_pos (by simp [isTable, hf, hv])]
  rw [hd]
  refine fill_loads sql o a.tab _ _ ret db _ _ ?_ hv hw.symm h999 (others_onTable _ _ _ (by intro t; rfl))
  rw [find_onTable _ _ _ _ (by intro t; rfl), if_pos (caseEq_refl _), hf]
  rfl

/-- **C178: overwrite**: as if the table had not been there. -/
theorem C178_overwrite (sql : Sql V) (o : Opts) (a : Args) (names first fn : List CStr) (recs : List (List CStr)) (ret : Nat) (db : Db V) (t : Table V) (hn : Named a names first fn) (hne : fn ≠ [])
    (hf : find db a.tab = some t) (ht : t.name = a.tab) (hv : t.view = false) (h1 : a.ifExists = 'o')
    (hv' : sql.valid a.tab (columns o a fn) a.tableParams = true) (hw : first.length = fn.length + if a.hasRow then 1 else 0) (h999 : first.length ≤ 999) :
    Loads sql o a.tab db { name := a.tab, cols := columns o a fn, params := a.tableParams, rows := [] } (first :: recs) ret (textToDb sql o a (some (names, first :: recs, ret)) db) := by
  have hany : (db.any fun u => u.name == a.tab) = true := by rw [← ht] at hf ⊢; exact any_of_find hf
  rw [textToDb_load sql o a names first fn recs ret db hn hne (by simp [h1])]
  simp only [hany, Bool.true_and, if_true]
  have hc : clear a db = db.filter fun t => !caseEq t.name a.tab := by
    unfold clear dropTable
    rw [if_neg (by rw [h1]; decide), if_pos h1, if_pos (by simp [isTable, hf, hv])]
  rw [hc, show decide (a.ifExists ≠ 'o') = false from by simp [h1]]
  refine load_new sql o a fn _ _ ret db _ ?_ hv' hw h999 ?_
  · rw [find_drop, if_pos (caseEq_refl _)]
  · intro n hn
    rw [find_drop, hn]
    simp

/-- **C178: do nothing** (the default) if the table, or a view, is there: −1 and the database as it was. -/
theorem C178_exists_nothing (sql : Sql V) (o : Opts) (a : Args) (file : Option (List CStr × List (List CStr) × Nat)) (db : Db V) (t : Table V) (hf : find db a.tab = some t) (ht : t.name = a.tab)
    (h1 : a.ifExists = 'n') : textToDb sql o a file db = .ok (-1, db) := by
  have hany : (db.any fun u => u.name == a.tab) = true := by rw [← ht] at hf ⊢; exact any_of_find hf
  unfold textToDb
  simp [hany, h1]

/-- **C178: the declared columns.** After an optional column for the row names, one for each name in order, with the type or constraint of the first pair whose regular expression matches it, or numeric. -/
theorem C178_columns (o : Opts) (a : Args) (fn : List CStr) :
    (columns o a fn).map (·.name) = (if a.hasRow then [str "row_names"] else []) ++ fn ∧
    ∀ c ∈ (columns o a fn).drop (if a.hasRow then 1 else 0),
      (∃ (i : Nat) (p : CStr × CStr), a.fieldParams[i]? = some p ∧ regexTrue o p.1 c.name = true ∧ c.decl = p.2 ∧ ∀ (j : Nat) (q : CStr × CStr), j < i → a.fieldParams[j]? = some q → regexTrue o q.1 c.name = false) ∨
      (c.decl = str "numeric" ∧ ∀ p ∈ a.fieldParams, regexTrue o p.1 c.name = false) := by
  have key : ∀ (ps : List (CStr × CStr)) (v : CStr),
      (∃ (i : Nat) (p : CStr × CStr), ps[i]? = some p ∧ regexTrue o p.1 v = true ∧ conditions o v ps = p.2 ∧ ∀ (j : Nat) (q : CStr × CStr), j < i → ps[j]? = some q → regexTrue o q.1 v = false) ∨
      (conditions o v ps = str "numeric" ∧ ∀ p ∈ ps, regexTrue o p.1 v = false) := by
    intro ps v
    induction ps with
    | nil => right; exact ⟨rfl, by simp⟩
    | cons p ps ih =>
      obtain ⟨re, what⟩ := p
      rw [conditions]
      by_cases h : regexTrue o re v = true
      · left
        rw [if_pos h]
        exact ⟨0, (re, what), rfl, h, rfl, by intro j q hj; omega⟩
      · rw [if_neg h]
        rcases ih with ⟨i, p, h1, h2, h3, h4⟩ | ⟨h1, h2⟩
        · left
          refine ⟨i + 1, p, by simpa using h1, h2, h3, ?_⟩
          intro j q hj hq
          cases j with
          | zero => simp only [List.getElem?_cons_zero, Option.some.injEq] at hq; subst hq; simpa using h
          | succ j => exact h4 j q (by omega) (by simpa using hq)
        · right
          refine ⟨h1, ?_⟩
          intro p hp
          rcases List.mem_cons.mp hp with rfl | hp
          · simpa using h
          · exact h2 p hp
  constructor
  · unfold columns
    split_ifs <;> simp [Function.comp_def]
  · intro c hc
    have : c ∈ fn.map fun n => (⟨n, conditions o n a.fieldParams⟩ : Col) := by
      unfold columns at hc
      split_ifs at hc <;> simpa using hc
    obtain ⟨n, -, rfl⟩ := List.mem_map.mp this
    exact key a.fieldParams n

/-- An expression that does not compile matches every name. -/
theorem C178_bad_regex_refuted (o : Opts) (re what v : CStr) (ps : List (CStr × CStr)) (h : o.regex re = none) : conditions o v ((re, what) :: ps) = what := by
  rw [conditions, if_pos (by simp [regexTrue, h])]

/-! ### The text of the query -/

/-- A column in the query. -/
def colText (c : Col) : CStr := str " '" ++ c.name ++ str "' " ++ c.decl

/-- **C178: the query**: `create table T ('row_names', 'a' type, 'b' type, constraints);`, where names are in single quotes as they are. -/
theorem C178_query (o : Opts) (a : Args) (fn : List CStr) (hne : fn ≠ []) :
    createText o a fn = .ok (str "create table " ++ a.tab ++ (if a.hasRow then str " ('row_names', " else str " (") ++
      (List.intercalate (str ", ") ((fn.map fun n => (⟨n, conditions o n a.fieldParams⟩ : Col)).map colText)) ++ (match a.tableParams with | none => [] | some x => str ", " ++ x) ++ str ");") := by
  have key : ∀ (ns : List CStr) (p q : CStr), createLoop (fun v => conditions o v a.fieldParams) a.hasRow a.tableParams (some p) ns (q ++ str " '" ++ p) =
      .ok (q ++ List.intercalate (str ", ") (((p :: ns).map fun n => (⟨n, conditions o n a.fieldParams⟩ : Col)).map colText) ++ (match a.tableParams with | none => [] | some x => str ", " ++ x) ++ str ");") := by
    intro ns
    induction ns with
    | nil =>
      intro p q
      rw [createLoop]
      simp only [closeTable, List.map_cons, List.map_nil, List.intercalate_singleton, colText, List.append_assoc]
    | cons n ns ih =>
      intro p q
      rw [createLoop, ih]
      simp only [openCol, List.map_cons, List.intercalate_cons_cons, colText, List.append_assoc]
  cases fn with
  | nil => exact absurd rfl hne
  | cons n ns =>
    unfold createText
    rw [createLoop, key]
    simp only [openCol]

/-! ### What is kept -/

theorem create_others (sql : Sql V) (db : Db V) (tab : CStr) (cols : List Col) (params : Option CStr) : OthersSame tab db (create sql db tab cols params) := by
  intro n hn
  unfold create
  split_ifs
  · rfl
  · rw [find_append]; simp [hn]

theorem insertText_cases (sql : Sql V) (o : Opts) (tab : CStr) (db : Db V) (r : List CStr) : insertText sql o tab db r = db ∨ ∃ row, insertText sql o tab db r = addRow db tab row := by
  unfold insertText
  cases find db tab with
  | none => left; rfl
  | some t =>
    simp only []
    cases values sql t.cols (r.map (literal o)) with
    | none => left; rfl
    | some row => simp only []; split_ifs <;> first | exact .inr ⟨row, rfl⟩ | exact .inl rfl

/-- Rows may have been added to tables, and nothing else. -/
def Grown (tab : CStr) (db db' : Db V) : Prop := OthersSame tab db db' ∧ ∀ t, find db tab = some t → ∃ extra, find db' tab = some { t with rows := t.rows ++ extra }

theorem grown_refl (tab : CStr) (db : Db V) : Grown tab db db := ⟨othersSame_refl _ _, fun _ h => ⟨[], by simpa using h⟩⟩

theorem grown_trans {tab : CStr} {a b c : Db V} (h : Grown tab a b) (h' : Grown tab b c) : Grown tab a c := by
  refine ⟨othersSame_trans h.1 h'.1, ?_⟩
  intro t ht
  obtain ⟨x, hx⟩ := h.2 t ht
  obtain ⟨y, hy⟩ := h'.2 _ hx
  exact ⟨x ++ y, by rw [hy]; simp⟩

theorem grown_addRow (db : Db V) (tab : CStr) (row : List (Cell V)) : Grown tab db (addRow db tab row) :=
  ⟨others_addRow _ _ _, fun _ h => ⟨[row], find_addRow h row⟩⟩

theorem grown_runPrepared (sql : Sql V) (o : Opts) (tab : CStr) : ∀ (recs : List (List CStr)) (db : Db V), Grown tab db (runPrepared sql o tab recs db).2
  | [], db => grown_refl _ _
  | r :: rs, db => by
    rw [runPrepared]
    cases find db tab with
    | none => exact grown_refl _ _
    | some t =>
      simp only []
      split_ifs
      · exact grown_trans (grown_addRow _ _ _) (grown_runPrepared sql o tab rs _)
      · exact grown_refl _ _

theorem grown_foldl (sql : Sql V) (o : Opts) (tab : CStr) : ∀ (recs : List (List CStr)) (db : Db V), Grown tab db (recs.foldl (insertText sql o tab) db)
  | [], db => grown_refl _ _
  | r :: rs, db => by
    rw [List.foldl_cons]
    refine grown_trans ?_ (grown_foldl sql o tab rs _)
    rcases insertText_cases sql o tab db r with h | ⟨row, h⟩
    · rw [h]; exact grown_refl _ _
    · rw [h]; exact grown_addRow _ _ _

theorem grown_fill (sql : Sql V) (o : Opts) (tab : CStr) (recs : List (List CStr)) (ct ret : Nat) (db : Db V) : Grown tab db (fill sql o tab recs ct ret db).2 := by
  unfold fill
  split_ifs
  · exact grown_runPrepared _ _ _ _ _
  · exact grown_refl _ _
  · exact grown_foldl _ _ _ _ _

theorem grown_create (sql : Sql V) (db : Db V) (tab : CStr) (cols : List Col) (params : Option CStr) : Grown tab db (create sql db tab cols params) := by
  refine ⟨create_others _ _ _ _ _, ?_⟩
  intro t ht
  refine ⟨[], ?_⟩
  unfold create
  rw [ht]
  simpa using ht

theorem grown_load (sql : Sql V) (o : Opts) (a : Args) (there : Bool) (fn : List CStr) (recs : List (List CStr)) (ct ret : Nat) (db : Db V) :
    Grown a.tab db (load sql o a there fn recs ct ret db).2 := by
  unfold load
  simp only []
  split_ifs
  · exact grown_fill _ _ _ _ _ _ _
  · exact grown_trans (grown_create _ _ _ _ _) (grown_fill _ _ _ _ _ _ _)
  · exact grown_create _ _ _ _ _

theorem clear_others (a : Args) (db : Db V) : OthersSame a.tab db (clear a db) := by
  unfold clear deleteRows dropTable
  split_ifs
  · exact others_onTable _ _ _ (by intro t; rfl)
  · exact othersSame_refl _ _
  · intro n hn; rw [find_drop, hn]; simp
  · exact othersSame_refl _ _
  · exact othersSame_refl _ _

/-- The result is of the database after `clear`, if it is done. -/
theorem textToDb_grown (sql : Sql V) (o : Opts) (a : Args) (file : Option (List CStr × List (List CStr) × Nat)) (db db' : Db V) (r : Int) (h : textToDb sql o a file db = .ok (r, db')) :
    Grown a.tab db db' ∨ Grown a.tab (clear a db) db' := by
  have fin : ∀ d : Db V, (d = db ∨ d = clear a db) → Grown a.tab d db' → Grown a.tab db db' ∨ Grown a.tab (clear a db) db' := by
    rintro d (rfl | rfl) hg
    · exact .inl hg
    · exact .inr hg
  unfold textToDb at h
  simp only [] at h
  split_ifs at h with h1 h2
  · cases h; exact .inl (grown_refl _ _)
  all_goals
    revert h
    rcases file with _ | ⟨names, _ | ⟨first, recs⟩, ret⟩
    · intro h; cases h; first | exact .inl (grown_refl _ _) | exact .inr (grown_refl _ _)
    · intro h; cases h; first | exact .inl (grown_refl _ _) | exact .inr (grown_refl _ _)
    · simp only []
      cases fieldNames a names first with
      | ub => intro h; cases h
      | ok fn =>
        cases fn with
        | nil => intro h; cases h
        | cons f fs =>
          simp only [Res.ok.injEq]
          intro h
          have e := congrArg Prod.snd h
          simp only [] at e
          rw [← e]
          first | exact .inl (grown_load _ _ _ _ _ _ _ _ _) | exact .inr (grown_load _ _ _ _ _ _ _ _ _)

/-- **C178: no other table or view is touched**, whatever the file, the options and the outcome. -/
theorem C178_others (sql : Sql V) (o : Opts) (a : Args) (file : Option (List CStr × List (List CStr) × Nat)) (db db' : Db V) (r : Int) (h : textToDb sql o a file db = .ok (r, db')) :
    OthersSame a.tab db db' := by
  rcases textToDb_grown sql o a file db db' r h with h | h
  · exact h.1
  · exact othersSame_trans (clear_others a db) h.1

/-- **C178: unless asked to delete or overwrite, no row is ever lost**: whatever the file and the outcome, a table that was there has its columns and rows as before, with perhaps more rows after them. -/
theorem C178_kept (sql : Sql V) (o : Opts) (a : Args) (file : Option (List CStr × List (List CStr) × Nat)) (db db' : Db V) (r : Int) (h : textToDb sql o a file db = .ok (r, db'))
    (h2 : a.ifExists ≠ 'd') (h3 : a.ifExists ≠ 'o') (t : Table V) (ht : find db a.tab = some t) : ∃ extra, find db' a.tab = some { t with rows := t.rows ++ extra } := by
  have hc : clear a db = db := by unfold clear; rw [if_neg h2, if_neg h3]
  rcases textToDb_grown sql o a file db db' r h with h | h
  · exact h.2 t ht
  · rw [hc] at h; exact h.2 t ht

/-! ### What goes wrong -/

/-- With 'd' and 'o' the old rows are gone before the file is opened: if there is no such file the table is empty, or is no more. -/
theorem C178_lost_refuted (sql : Sql V) (o : Opts) (a : Args) (db : Db V) (t : Table V) (hf : find db a.tab = some t) (ht : t.name = a.tab) (hv : t.view = false) :
    (a.ifExists = 'd' → ∃ db', textToDb sql o a none db = .ok (-1, db') ∧ find db' a.tab = some { t with rows := [] }) ∧
    (a.ifExists = 'o' → ∃ db', textToDb sql o a none db = .ok (-1, db') ∧ find db' a.tab = none) := by
  have hany : (db.any fun u => u.name == a.tab) = true := by rw [← ht] at hf ⊢; exact any_of_find hf
  constructor
  · intro h1
    refine ⟨clear a db, by unfold textToDb; simp [hany, h1], ?_⟩
    unfold clear deleteRows
    rw [if_pos h1, if_pos (by simp [isTable, hf, hv]), find_onTable _ _ _ _ (by intro t; rfl), if_pos (caseEq_refl _), hf]
    rfl
  · intro h1
    refine ⟨clear a db, by unfold textToDb; simp [hany, h1], ?_⟩
    unfold clear dropTable
    rw [if_neg (by rw [h1]; decide), if_pos h1, if_pos (by simp [isTable, hf, hv]), find_drop, if_pos (caseEq_refl _)]

/-- A file with another number of fields in its first line than the table has columns: −1, and with 'a' nothing is done. -/
theorem C178_width (sql : Sql V) (o : Opts) (a : Args) (names first fn : List CStr) (recs : List (List CStr)) (ret : Nat) (db : Db V) (t : Table V) (hn : Named a names first fn) (hne : fn ≠ [])
    (hf : find db a.tab = some t) (ht : t.name = a.tab) (h1 : a.ifExists ≠ 'n') (h2 : a.ifExists ≠ 'd') (h3 : a.ifExists ≠ 'o') (hw : first.length ≠ t.cols.length) (h999 : first.length ≤ 999) :
    textToDb sql o a (some (names, first :: recs, ret)) db = .ok (-1, db) := by
  have hany : (db.any fun u => u.name == a.tab) = true := by rw [← ht] at hf ⊢; exact any_of_find hf
  rw [textToDb_load sql o a names first fn recs ret db hn hne (by simp [h1])]
  simp only [hany, Bool.true_and, if_true, clear, if_neg h2, if_neg h3]
  rw [show decide (a.ifExists ≠ 'o') = true from by simp [h3]]
  unfold load fill
  rw [if_pos rfl, if_pos h999, if_neg (by simp [prepareOk, hf, Ne.symm hw])]

/-- **Row names without a header**: −1 always (up to 999 columns), and an empty table of one column too many is left. The same if the names are given in the call. -/
theorem C178_row_names_refuted (sql : Sql V) (o : Opts) (a : Args) (names first fn : List CStr) (recs : List (List CStr)) (ret : Nat) (db : Db V) (hn : Named a names first fn) (hne : fn ≠ [])
    (hf : find db a.tab = none) (hv : sql.valid a.tab (columns o a fn) a.tableParams = true) (hr : a.hasRow = true) (hh : a.header = false ∨ a.given ≠ none) (h999 : first.length ≤ 999) :
    textToDb sql o a (some (names, first :: recs, ret)) db = .ok (-1, db ++ [{ name := a.tab, cols := columns o a fn, params := a.tableParams, rows := [] }]) := by
  have hany := any_of_none hf
  have hl : fn.length = first.length := by
    unfold Named at hn
    cases hg : a.given with
    | some g => rw [hg] at hn; simp only [] at hn; rw [hn.2, List.length_take]; omega
    | none =>
      rw [hg] at hn
      rcases hh with hh | hh
      · simp only [hh, Bool.false_eq_true, if_false] at hn; exact hn.1
      · exact absurd hg hh
  rw [textToDb_load sql o a names first fn recs ret db hn hne (by simp [hany])]
  simp only [hany, Bool.false_and, Bool.false_eq_true, if_false]
  unfold load
  simp only [Bool.false_eq_true, if_false]
  have hc : create sql db a.tab (columns o a fn) a.tableParams = db ++ [newTable o a fn] := by
    unfold create
    rw [hf, hv]
    rfl
  rw [hc]
  have hfind : find (db ++ [newTable o a fn]) a.tab = some (newTable o a fn) := by
    rw [find_append, hf]
    simp [newTable, caseEq_refl]
  have hany : ((db ++ [newTable o a fn]).any fun t => t.name == a.tab) = true := any_of_find (t := newTable o a fn) hfind
  rw [if_pos hany]
  unfold fill
  have hcl : (newTable (V := V) o a fn).cols.length = first.length + 1 := by
    show (columns o a fn).length = _
    rw [columns_length, if_pos hr, hl]
  rw [if_pos h999, if_neg (by simp [prepareOk, hfind, hcl])]
  rfl

/-- **A name that differs in case only**: the table is there for SQLite, and not for the check; −1 whatever was asked for, and nothing is done. -/
theorem C178_case_refuted (sql : Sql V) (o : Opts) (a : Args) (names first fn : List CStr) (recs : List (List CStr)) (ret : Nat) (db : Db V) (ok : Ok db) (t : Table V) (hn : Named a names first fn) (hne : fn ≠ [])
    (hf : find db a.tab = some t) (ht : t.name ≠ a.tab) : textToDb sql o a (some (names, first :: recs, ret)) db = .ok (-1, db) := by
  have hany : (db.any fun u => u.name == a.tab) = false := by
    rw [List.any_eq_false]
    intro u hu he
    have he := beq_iff_eq.mp he
    have hm := List.mem_of_find?_eq_some hf
    have hcase : caseEq t.name a.tab = true := List.find?_some (p := fun t : Table V => caseEq t.name a.tab) hf
    rcases (List.pairwise_iff_getElem.mp ok) with hp
    obtain ⟨i, hi, rfl⟩ := List.mem_iff_getElem.mp hu
    obtain ⟨j, hj, rfl⟩ := List.mem_iff_getElem.mp hm
    rw [← he] at hcase
    rcases Nat.lt_trichotomy i j with h | h | h
    · have := hp i j hi hj h
      rw [caseEq_comm, hcase] at this
      simp at this
    · subst h; exact ht he
    · have := hp j i hj hi h
      rw [hcase] at this
      simp at this
  rw [textToDb_load sql o a names first fn recs ret db hn hne (by simp [hany])]
  simp only [hany, Bool.false_and, Bool.false_eq_true, if_false]
  unfold load
  simp only [Bool.false_eq_true, if_false]
  have hc : create sql db a.tab (columns o a fn) a.tableParams = db := by
    unfold create
    rw [hf]
    rfl
  rw [hc, hany]
  rfl

/-- **More than 999 columns**: the lines are inserted one by one by queries whose errors are not looked at. If SQLite refuses no row for its constraints, those lines are in the table that have as many fields as it has columns and whose values are all valid; the others are left out, and the result doesn't tell. -/
theorem C178_wide (sql : Sql V) (o : Opts) (tab : CStr) (ct ret : Nat) (h : 999 < ct) (ha : ∀ t r, sql.allows t r = true) : ∀ (recs : List (List CStr)) (db : Db V) (t : Table V), find db tab = some t → t.view = false →
    (fill sql o tab recs ct ret db).1 = ret ∧
    find (fill sql o tab recs ct ret db).2 tab = some { t with rows := t.rows ++ recs.filterMap fun r => values sql t.cols (r.map (literal o)) } := by
  have e : ∀ (recs : List (List CStr)) (db : Db V), fill sql o tab recs ct ret db = ((ret : Int), recs.foldl (insertText sql o tab) db) := by
    intro recs db
    unfold fill
    rw [if_neg (by omega)]
  intro recs
  induction recs with
  | nil => intro db t hf _; rw [e]; exact ⟨rfl, by simpa using hf⟩
  | cons r rs ih =>
    intro db t hf hv
    rw [e]
    refine ⟨rfl, ?_⟩
    simp only [List.foldl_cons]
    cases hx : values sql t.cols (r.map (literal o)) with
    | none =>
      have : insertText sql o tab db r = db := by unfold insertText; rw [hf]; simp only [hx]
      rw [this, List.filterMap_cons, hx]
      have := (ih db t hf hv).2
      rw [e] at this
      exact this
    | some row =>
      have : insertText sql o tab db r = addRow db tab row := by unfold insertText; rw [hf]; simp only [hx, hv, ha]; rfl
      rw [this, List.filterMap_cons, hx]
      have := (ih (addRow db tab row) _ (find_addRow hf row) hv).2
      rw [e] at this
      simpa using this

/-- A line of another length is never inserted then. -/
theorem C178_wide_dropped (sql : Sql V) : ∀ (cols : List Col) (ss : List CStr), cols.length ≠ ss.length → values sql cols ss = none
  | [], [], h => absurd rfl h
  | [], _ :: _, _ => rfl
  | _ :: _, [], _ => rfl
  | c :: cs, s :: ss, h => by
    rw [values, C178_wide_dropped sql cs ss (by simpa using h)]
    cases sql.value c.decl s <;> rfl

/-! ### The default name -/

/-- **C178: the default table name** is what is after the last slash, up to the first dot there. -/
theorem C178_default_name (dir base ext : CStr) (h1 : (47 : UInt8) ∉ base) (h2 : (46 : UInt8) ∉ base) (h3 : (47 : UInt8) ∉ ext) :
    cutAtDot (dir ++ str "/" ++ base ++ str "." ++ ext) = base ∧ cutAtDot (base ++ str "." ++ ext) = base ∧ cutAtDot (dir ++ str "/" ++ base) = base ∧ cutAtDot base = base := by
  have hs : str "/" = [47] := by decide +kernel
  have hd : str "." = [46] := by decide +kernel
  have hb : ∀ p l : CStr, (47 : UInt8) ∉ l → basename (p ++ [47] ++ l) = l ∧ basename l = l := by
    intro p l hl
    have hall : ∀ x ∈ l.reverse, (x != 47) = true := by
      intro x hx
      simp only [bne_iff_ne, ne_eq]
      rintro rfl
      exact hl (by simpa using hx)
    constructor
    · unfold basename
      simp only [List.reverse_append, List.reverse_cons, List.reverse_nil, List.nil_append, List.singleton_append]
      rw [List.takeWhile_append_of_pos hall]
      simp
    · unfold basename
      rw [show l.reverse = l.reverse ++ [] from by simp, List.takeWhile_append_of_pos hall]
      simp
  have ht : ∀ l : CStr, List.takeWhile (· != 46) (base ++ l) = base ++ List.takeWhile (· != 46) l := by
    intro l
    refine List.takeWhile_append_of_pos ?_
    intro x hx
    simp only [bne_iff_ne, ne_eq]
    rintro rfl
    exact h2 hx
  have hno : (47 : UInt8) ∉ base ++ [46] ++ ext := by simp [h1, h3]
  have ht0 := ht []
  simp only [List.append_nil, List.takeWhile_nil] at ht0
  have e1 : List.takeWhile (· != 46) (base ++ [46] ++ ext) = base := by
    rw [List.append_assoc, ht]
    simp
  rw [hs, hd]
  unfold cutAtDot
  refine ⟨?_, ?_, ?_, ?_⟩
  · rw [show dir ++ [47] ++ base ++ [46] ++ ext = dir ++ [47] ++ (base ++ [46] ++ ext) from by simp, (hb dir _ hno).1, e1]
  · rw [(hb [] _ hno).2, e1]
  · rw [(hb dir _ h1).1, ht0]
  · rw [(hb [] _ h1).2, ht0]

/-- Standard input's is "-", which is no name for a table. -/
theorem C178_stdin_name : cutAtDot (str "-") = str "-" := by decide +kernel

/-! ### From the file's bytes -/

/-- **C178: a whole file with a header.** The bytes of a file whose lines end in newlines, with a header of `names` and data lines, go to a new table: the columns have the header's names, and there is a row for each data line that is not blank, in order, field by field. -/
theorem C178_file (sql : Sql V) (o : Opts) (a : Args) (hh : a.header = true) (hg : a.given = none) (hr : a.hasRow = false) (bs : Nat) (hbs : 0 < bs) (delims : CStr) (hd : (255 : UInt8) ∉ delims)
    {hbl : Parse.Lines} {hln : List UInt8} {names : List (List UInt8)} (h1 : Parse.Head delims hbl hln names) {bl : Parse.Lines} {ln : List UInt8} {fields : List (List UInt8)}
    (h2 : Parse.Head delims bl ln fields) (ls : Parse.Lines) (hls : ls.Ok delims) (file : List UInt8) (hfile : file = hbl.bytes ++ (hln ++ (bl.bytes ++ (ln ++ ls.bytes)))) (h255 : (255 : UInt8) ∉ file)
    (fuel : Nat) (hfu : file.length + hbl.length + bl.length + ls.length + 2 < fuel) (db : Db V) (hf : find db a.tab = none) (hne : names ≠ []) (hw : fields.length = names.length) (h999 : names.length ≤ 999)
    (hv : sql.valid a.tab (columns o a (Parse.strsOf names)) a.tableParams = true) :
    ∃ x, Parse.textToDb (Parse.fileSeq bs file) delims fuel true = .done x ∧
      Loads sql o a.tab db { name := a.tab, cols := columns o a (Parse.strsOf names), params := a.tableParams, rows := [] } (Parse.strsOf fields :: ls.records) x.2.2 (textToDb sql o a (some x) db) := by
  obtain ⟨ret, h⟩ := Parse.C33_records bs hbs delims hd h1 h2 ls hls file hfile h255 fuel hfu
  have hl : ∀ l : List (List UInt8), (Parse.strsOf l).length = l.length := by intro l; simp [Parse.strsOf]
  refine ⟨_, h, ?_⟩
  refine C178_new sql o a (Parse.strsOf names) (Parse.strsOf fields) (Parse.strsOf names) ls.records ret db ?_ ?_ hf hv ?_ (by rw [hl, hw]; exact h999)
  · unfold Named; rw [hg]; simp [hh]
  · intro e; apply hne; rw [← List.length_eq_zero_iff, ← hl, e]; rfl
  · rw [hl, hl, hr, hw]; rfl

/-! ### The hypotheses hold -/

/-- An SQLite that takes everything, and keeps texts as they are. -/
def plain : Sql Nat := ⟨fun _ _ _ => true, fun _ s => .text s, fun _ s => some (.text s), fun _ _ => true⟩

/-- Columns named k are keys: no value twice in the first column. -/
def keyed : Sql Nat := { plain with allows := fun t r => !(t.rows.map (·.head?)).contains r.head? }

/-- Nothing is a number, `nan` is missing, and an expression matches if it is the name. -/
def exOpts : Opts := ⟨⟨fun _ => 0, fun _ => .other⟩, some (str "nan"), fun re => if re = str "(" then none else some fun v => v == re⟩

/-- A database with a table and another. -/
def exDb : Db Nat := [{ name := str "t", cols := [⟨str "k", str "text"⟩, ⟨str "v", str "numeric"⟩], rows := [[.text (str "a"), .null]] }, { name := str "u", cols := [⟨str "x", []⟩], rows := [] }]

example : Named { tab := str "new" } [str "k", str "v"] [str "1", str "2"] [str "k", str "v"] ∧ find exDb (str "new") = none ∧
    textToDb plain exOpts { tab := str "new", fieldParams := [(str "v", str "text")] } (some ([str "k", str "v"], [[str "x", str "NaN"], [str "y"], [str "z", str "2", str "3"]], 4)) exDb =
      .ok (4, exDb ++ [{ name := str "new", cols := [⟨str "k", str "numeric"⟩, ⟨str "v", str "text"⟩], rows := [[.text (str "x"), .null], [.text (str "y"), .null], [.text (str "z"), .text (str "2")]] }]) := by
  refine ⟨by simp [Named], by decide +kernel, by decide +kernel⟩

example : textToDb keyed exOpts { tab := str "t", ifExists := 'a' } (some ([str "k", str "v"], [[str "b", str "1"], [str "a", str "2"], [str "c", str "3"]], 4)) exDb =
    .ok (-1, [{ name := str "t", cols := [⟨str "k", str "text"⟩, ⟨str "v", str "numeric"⟩], rows := [[.text (str "a"), .null], [.text (str "b"), .text (str "1")]] }, { name := str "u", cols := [⟨str "x", []⟩], rows := [] }]) := by
  decide +kernel

example : conditions exOpts (str "v") [(str "(", str "text"), (str "v", str "blob")] = str "text" := C178_bad_regex_refuted _ _ _ _ _ (by decide +kernel)

example : createText exOpts { tab := str "t", hasRow := true, tableParams := some (str "primary key(a)") } [str "a", str "b"] = .ok (str "create table t ('row_names',  'a' numeric,  'b' numeric, primary key(a));") := by
  decide +kernel

example : cutAtDot (str "../data/pant_lengths.csv") = str "pant_lengths" := by decide +kernel

end Apop.Db.Import
