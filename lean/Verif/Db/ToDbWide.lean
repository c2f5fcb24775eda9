import Verif.Db.ToDb
import Verif.Parse.Quote
import Mathlib.Data.List.Forall2

/-! # C209: from data to tables of a thousand columns or more (apop_db.m4.c:484-493, 626-667)

Above 999 columns `apop_data_to_db` does not prepare a statement: each row is written out as SQL text. -/

namespace Apop.Db.ToDbWide
open Apop Apop.Db.ToDb

variable {V : Type}

/-- What the code asks of a number, and how `%g` prints it (nothing is assumed of either); `strtod`; and the options. -/
structure Env (V : Type) where
  cls : V → Parse.NumClass
  g : V → CStr
  st : Parse.Strtod
  nan : Option CStr
  nameColumn : Option CStr

/-- The options, as the other path's functions want them. -/
def Env.opts (e : Env V) : Opts V := ⟨e.nameColumn, e.nan, fun v => e.cls v == .nan⟩

/-! ## The code -/

/-- The formats of `add_a_number`, apop_db.m4.c:485-492, after the comma. -/
def numText (c : Parse.NumClass) (g : CStr) : CStr :=
  match c with
  | .nan => str " NULL "
  | .inf => str "  'inf'"
  | .ninf => str "  '-inf' "
  | .other => str " " ++ g ++ str " "

/-- `add_a_number`, apop_db.m4.c:484-493: the text so far and the character to put before the next value. -/
def addNumber (e : Env V) (q : CStr × UInt8) (v : V) : CStr × UInt8 :=
  (q.1 ++ [q.2] ++ numText (e.cls v) (e.g v), 44)

/-- A row name, lines 642-646: `prep_string_for_sqlite` gives NULL for a missing one, and NULL is given to `%s`. -/
def addName (e : Env V) (q : CStr × UInt8) (s : CStr) : Res (CStr × UInt8) :=
  match Parse.prepString e.st e.nan false s with
  | none => .ub
  | some f => .ok (q.1 ++ str " " ++ f ++ str " ", 44)

/-- A text cell, lines 654-657. -/
def addText (e : Env V) (q : CStr × UInt8) (s : CStr) : CStr × UInt8 :=
  (q.1 ++ [q.2] ++ str " " ++ (Parse.prepString e.st e.nan false s).getD (str "''") ++ str " ", 44)

/-- A part that may not be there, of which element `i` is read. -/
def part {β : Type} (p : Option (List β)) (i : Nat) (f : CStr × UInt8 → β → CStr × UInt8) (q : CStr × UInt8) : Res (CStr × UInt8) :=
  match p with
  | none => .ok q
  | some l => (rd l i).map (f q)

/-- The statement for one row, lines 638-662; `q0`: what is in the string already. An element that is not there is undefined behaviour for text and names; for vectors and matrices it is an error of the GSL's, which by default ends the program, and is `ub` here too. -/
def rowStmt (e : Env V) (s : ToDb.Set V) (q0 tab : CStr) (i : Nat) : Res CStr :=
  ((if useRow e.opts s then (rd (s.names.getD .alloc).row i).bind (addName e (q0 ++ str " \n insert into " ++ tab ++ str " values(", 32)) else .ok (q0 ++ str " \n insert into " ++ tab ++ str " values(", 32)).bind fun q =>
  (part s.vector i (addNumber e) q).bind fun q =>
  (part (s.matrix.map (·.rows)) i (fun q r => r.foldl (addNumber e) q) q).bind fun q =>
  (part (if s.textWidth = 0 then none else some s.text) i (fun q r => r.foldl (addText e) q) q).bind fun q =>
  (part s.weights i (addNumber e) q)).map fun q => q.1 ++ str ");"

/-- All rows' statements from row `i` on, `k` rows, lines 638-665: the string is `" "` before the first and empty before the others. -/
def stmts (e : Env V) (s : ToDb.Set V) (tab : CStr) : Nat → Nat → Res (List CStr)
  | 0, _ => .ok []
  | k + 1, i => (rowStmt e s (if i = 0 then str " " else []) tab i).bind fun x => (stmts e s tab k (i + 1)).map (x :: ·)

/-- `apop_data_to_db` with SQLite from 1000 columns on, lines 626-667: the statements are run one by one by `apop_query`, here `exec`, whose result is not looked at. -/
def dataToDbWide {D : Type} (e : Env V) (exec : CStr → D → D) (s : ToDb.Set V) (tab : CStr) (d : D) : Res (Bool × D) :=
  (stmts e s tab (maxsize s) 0).map fun l => (true, l.foldl (fun d x => exec x d) d)

/-! ## Specification -/

/-- The list of values in an SQL statement, cut at the commas that are not in quotes. -/
def split : Option UInt8 → CStr → CStr → List CStr
  | _, cur, [] => [cur]
  | some k, cur, c :: r => split (if c = k then none else some k) (cur ++ [c]) r
  | none, cur, c :: r => if c = 44 then cur :: split none [] r else split (if c = 39 ∨ c = 34 then some c else none) (cur ++ [c]) r

/-- What a row has in a column. -/
inductive Value (V : Type) where
  | name (s : CStr)
  | num (v : V)
  | str (s : CStr)

/-- The values of a row, in the order of the columns: name, vector, matrix, text, weight. -/
def rowValues (e : Env V) (s : ToDb.Set V) (i : Nat) : List (Value V) :=
  (if useRow e.opts s then (((s.names.getD .alloc).row)[i]?).toList.map .name else []) ++
  (match s.vector with | none => [] | some v => (v[i]?).toList.map .num) ++
  (match s.matrix with | none => [] | some m => (m.rows[i]?).toList.flatten.map .num) ++
  (s.text[i]?).toList.flatten.map .str ++
  (match s.weights with | none => [] | some w => (w[i]?).toList.map .num)

/-- A string that is taken for a missing one. -/
def Missing (e : Env V) (s : CStr) : Prop := s = [] ∨ ∃ n, e.nan = some n ∧ caseEq n s = true

/-- The SQL token for a number. -/
def numToken (c : Parse.NumClass) (g : CStr) : CStr :=
  match c with
  | .nan => str "NULL"
  | .inf => str "'inf'"
  | .ninf => str "'-inf'"
  | .other => g

/-- The SQL token for a string. -/
def StrToken (e : Env V) (s t : CStr) : Prop := (Missing e s ∧ t = str "''") ∨ (¬ Missing e s ∧ if e.st.used s = s.length then t = Parse.prepNumber e.st s else Parse.sqlLiteral t s)

/-- This SQL token stands for this value. -/
def Token (e : Env V) : Value V → CStr → Prop
  | .num v, t => t = numToken (e.cls v) (e.g v)
  | .name s, t => StrToken e s t
  | .str s, t => StrToken e s t

/-- The token, with blanks around. -/
def Reads (e : Env V) (v : Value V) (p : CStr) : Prop := ∃ a t b, p = a ++ t ++ b ∧ (∀ c ∈ a ++ b, c = 32) ∧ Token e v t

/-- The text has no comma and no quotes. -/
def Bare (s : CStr) : Prop := ∀ c ∈ s, c ≠ 44 ∧ c ≠ 39 ∧ c ≠ 34

/-- `%g` prints no commas and quotes, numbers as text have none, and other strings no apostrophe (of those: C35). -/
structure Plain (e : Env V) (s : ToDb.Set V) (i : Nat) : Prop where
  g : ∀ v, Bare (e.g v)
  str : ∀ x, Value.str x ∈ rowValues e s i ∨ Value.name x ∈ rowValues e s i → if e.st.used x = x.length then Bare x else 39 ∉ x

/-! ## Proofs -/

theorem bytes : str " " = [32] ∧ str " NULL " = [32, 78, 85, 76, 76, 32] ∧ str "  'inf'" = [32, 32, 39, 105, 110, 102, 39] ∧ str "  '-inf' " = [32, 32, 39, 45, 105, 110, 102, 39, 32] ∧ str "NULL" = [78, 85, 76, 76] ∧
    str "'inf'" = [39, 105, 110, 102, 39] ∧ str "'-inf'" = [39, 45, 105, 110, 102, 39] ∧ str "''" = [39, 39] := by decide +kernel

/-- Reading goes over it without a cut. -/
def Whole (f : CStr) : Prop := ∀ cur r, split none cur (f ++ r) = split none (cur ++ f) r

theorem whole_nil : Whole [] := fun cur r => by simp

theorem Whole.append {a b : CStr} (ha : Whole a) (hb : Whole b) : Whole (a ++ b) := fun cur r => by
  rw [List.append_assoc, ha, hb, List.append_assoc]

theorem whole_bare : ∀ {s : CStr}, Bare s → Whole s
  | [], _ => whole_nil
  | c :: s, h => fun cur r => by
    obtain ⟨h1, h2, h3⟩ := h c List.mem_cons_self
    have ih := whole_bare (s := s) (fun x hx => h x (List.mem_cons_of_mem _ hx))
    rw [List.cons_append, split, if_neg h1, if_neg (by simp [h2, h3]), ih]
    simp

theorem in_quotes : ∀ (s : CStr) (cur r : CStr), 39 ∉ s → split (some 39) cur (s ++ 39 :: r) = split none (cur ++ s ++ [39]) r
  | [], cur, r, _ => by simp [split]
  | c :: s, cur, r, h => by
    have h1 : c ≠ 39 := fun e => h (by simp [e])
    rw [List.cons_append, split, if_neg h1, in_quotes s _ r (fun e => h (List.mem_cons_of_mem _ e))]
    simp

theorem whole_quoted {s : CStr} (h : 39 ∉ s) : Whole (39 :: s ++ [39]) := fun cur r => by
  have := in_quotes s (cur ++ [39]) r h
  simp only [List.cons_append, List.append_assoc, List.nil_append] at this ⊢
  rw [split, if_neg (by decide), if_pos (Or.inl rfl), this]

theorem split_parts : ∀ (fs : List CStr) (f cur : CStr), (∀ x ∈ f :: fs, Whole x) → split none cur (List.intercalate [44] (f :: fs)) = (cur ++ f) :: fs
  | [], f, cur, h => by
    have := h f List.mem_cons_self cur []
    simpa [split] using this
  | g :: fs, f, cur, h => by
    have e : List.intercalate [44] (f :: g :: fs) = f ++ 44 :: List.intercalate [44] (g :: fs) := by simp [List.intercalate]
    rw [e, h f List.mem_cons_self, split, if_pos rfl, split_parts fs g [] (fun x hx => h x (List.mem_cons_of_mem _ hx))]
    rfl

/-- The state after these values. -/
def st (head : CStr) : List CStr → CStr × UInt8
  | [] => (head, 32)
  | f :: fs => (head ++ 32 :: List.intercalate [44] (f :: fs), 44)

theorem intercalate_snoc (f : CStr) : ∀ (g : CStr) (fs : List CStr), List.intercalate [44] (g :: (fs ++ [f])) = List.intercalate [44] (g :: fs) ++ 44 :: f
  | g, [] => by simp [List.intercalate]
  | g, h :: fs => by
    have ih := intercalate_snoc f h fs
    have e : ∀ l, List.intercalate [44] (g :: h :: l) = g ++ 44 :: List.intercalate [44] (h :: l) := fun l => by simp [List.intercalate]
    rw [List.cons_append, e, e, ih]; simp

theorem st_push (head f : CStr) (fs : List CStr) : ((st head fs).1 ++ [(st head fs).2] ++ f, (44 : UInt8)) = st head (fs ++ [f]) := by
  cases fs with
  | nil => simp [st, List.intercalate]
  | cons g fs => rw [List.cons_append, st, st, intercalate_snoc]; simp

/-- What the code writes for a value, after the comma. -/
def frag (e : Env V) : Value V → CStr
  | .name s => (Parse.prepString e.st e.nan false s).getD (str "''") ++ str " "
  | .num v => numText (e.cls v) (e.g v)
  | .str s => str " " ++ (Parse.prepString e.st e.nan false s).getD (str "''") ++ str " "

theorem number_push (e : Env V) (head : CStr) (fs : List CStr) (v : V) : addNumber e (st head fs) v = st head (fs ++ [frag e (.num v)]) := by
  rw [← st_push]; rfl

theorem text_push (e : Env V) (head : CStr) (fs : List CStr) (s : CStr) : addText e (st head fs) s = st head (fs ++ [frag e (.str s)]) := by
  rw [← st_push]; simp [addText, frag]

theorem numbers_push (e : Env V) (head : CStr) : ∀ (l : List V) (fs : List CStr), l.foldl (addNumber e) (st head fs) = st head (fs ++ l.map fun v => frag e (.num v))
  | [], fs => by simp
  | v :: l, fs => by rw [List.foldl_cons, number_push, numbers_push e head l]; simp

theorem texts_push (e : Env V) (head : CStr) : ∀ (l : List CStr) (fs : List CStr), l.foldl (addText e) (st head fs) = st head (fs ++ l.map fun v => frag e (.str v))
  | [], fs => by simp
  | v :: l, fs => by rw [List.foldl_cons, text_push, texts_push e head l]; simp

theorem prep_missing (e : Env V) (s : CStr) : Parse.prepString e.st e.nan false s = none ↔ Missing e s := by
  rw [Parse.C35_missing]; unfold Missing
  simp only [caseEq_iff]

theorem number_text (c : Parse.NumClass) (g : CStr) (hg : Bare g) :
    (∃ a t b, numText c g = a ++ t ++ b ∧ (∀ c ∈ a ++ b, c = 32) ∧ t = numToken c g) ∧ Whole (numText c g) := by
  obtain ⟨b1, b2, b3, b4, b5, b6, b7, b8⟩ := bytes
  have sp : Whole [32] := whole_bare (by intro c hc; simp at hc; subst hc; decide)
  cases c <;> simp only [numText, numToken]
  · refine ⟨⟨[32, 32], str "'inf'", [], by rw [b3, b6]; rfl, by simp, rfl⟩, ?_⟩
    rw [b3]; exact (sp.append sp).append (whole_quoted (s := [105, 110, 102]) (by decide))
  · refine ⟨⟨[32, 32], str "'-inf'", [32], by rw [b4, b7]; rfl, by simp, rfl⟩, ?_⟩
    rw [b4]; exact ((sp.append sp).append (whole_quoted (s := [45, 105, 110, 102]) (by decide))).append sp
  · refine ⟨⟨[32], str "NULL", [32], by rw [b2, b5]; rfl, by simp, rfl⟩, ?_⟩
    rw [b2]; exact whole_bare (by unfold Bare; decide)
  · refine ⟨⟨[32], g, [32], by rw [b1], by simp, rfl⟩, ?_⟩
    rw [b1]; exact (sp.append (whole_bare hg)).append sp

theorem token_frag (e : Env V) (v : Value V) (hg : ∀ v, Bare (e.g v)) (hs : ∀ x, v = .str x ∨ v = .name x → if e.st.used x = x.length then Bare x else 39 ∉ x) :
    Reads e v (frag e v) ∧ Whole (frag e v) := by
  obtain ⟨b1, b2, b3, b4, b5, b6, b7, b8⟩ := bytes
  have sp : Whole [32] := whole_bare (by intro c hc; simp at hc; subst hc; decide)
  have key : ∀ s, (if e.st.used s = s.length then Bare s else 39 ∉ s) → ∃ t, (Parse.prepString e.st e.nan false s).getD (str "''") = t ∧ StrToken e s t ∧ Whole t := by
    intro s hx0
    refine ⟨_, rfl, ?_⟩
    by_cases hm : Missing e s
    · rw [(prep_missing e s).2 hm]
      refine ⟨Or.inl ⟨hm, rfl⟩, ?_⟩
      rw [Option.getD_none, b8]; exact whole_quoted (s := []) (by simp)
    · have hx := hx0
      have hne : Parse.prepString e.st e.nan false s ≠ none := fun h => hm ((prep_missing e s).1 h)
      unfold Parse.prepString at hne ⊢
      split at hne
      · exact absurd rfl hne
      · rename_i h0
        rw [if_neg h0]
        by_cases hu : e.st.used s = s.length
        · rw [if_pos hu] at hx
          rw [if_neg (by simpa using hu), Option.getD_some]
          refine ⟨Or.inr ⟨hm, by rw [if_pos hu]⟩, whole_bare ?_⟩
          unfold Parse.prepNumber
          cases e.st.cls s <;> simp only
          · unfold Bare; decide +kernel
          · unfold Bare; decide +kernel
          · unfold Bare; decide +kernel
          · split
            · intro c hc
              rcases List.mem_cons.1 hc with rfl | hc
              · decide
              · exact hx c hc
            · exact hx
        · rw [if_neg hu] at hx
          rw [if_pos hu, Option.getD_some]
          refine ⟨Or.inr ⟨hm, by rw [if_neg hu]; exact ⟨s ++ [39], by simp [Parse.prepText, hx], Parse.sqlBody_plain 39 s hx⟩⟩, ?_⟩
          simp only [Parse.prepText, Bool.false_eq_true, if_false, hx]
          exact whole_quoted hx
  cases v with
  | num v => exact number_text _ _ (hg v)
  | name s =>
    obtain ⟨t, ht, h1, h2⟩ := key s (hs s (Or.inr rfl))
    have e1 : frag e (.name s) = [] ++ t ++ [32] := by rw [List.nil_append, ← ht, ← b1]; rfl
    rw [e1]
    exact ⟨⟨[], t, [32], rfl, by simp, h1⟩, (whole_nil.append h2).append sp⟩
  | str s =>
    obtain ⟨t, ht, h1, h2⟩ := key s (hs s (Or.inl rfl))
    have e1 : frag e (.str s) = [32] ++ t ++ [32] := by rw [← ht, ← b1]; rfl
    rw [e1]
    exact ⟨⟨[32], t, [32], rfl, by simp, h1⟩, (sp.append h2).append sp⟩

theorem part_numbers (e : Env V) (head : CStr) (p : Option (List V)) (i : Nat) (fs : List CStr) (h : ∀ l, p = some l → i < l.length) :
    part p i (addNumber e) (st head fs) = .ok (st head (fs ++ (match p with | none => [] | some l => (l[i]?).toList.map Value.num).map (frag e))) := by
  cases p with
  | none => simp [part]
  | some l =>
    have hi := h l rfl
    simp only [part, rd_of_lt hi, Res.map, number_push, List.getElem?_eq_getElem hi]
    simp

/-- **C209 (each row).** For a data set whose parts have the same number of rows, and whose row names (if they are used) are none missing: the statement for a row is one insertion into the table, and the values read from it, cut at the commas outside of quotes, are those of the row: name, vector, matrix, text, weight. -/
theorem C209_row (e : Env V) (s : ToDb.Set V) (n : Nat) (h : s.Rect n) (q0 tab : CStr) (i : Nat) (hi : i < n) (hp : Plain e s i)
    (hne : rowValues e s i ≠ []) (hname : useRow e.opts s = true → ∃ x, ((s.names.getD .alloc).row)[i]? = some x ∧ ¬ Missing e x) :
    ∃ body, rowStmt e s q0 tab i = .ok (q0 ++ str " \n insert into " ++ tab ++ str " values(" ++ body ++ str ");") ∧ List.Forall₂ (Reads e) (rowValues e s i) (split none [] body) := by
  obtain ⟨b1, -⟩ := bytes
  unfold rowStmt
  generalize hh : q0 ++ str " \n insert into " ++ tab ++ str " values(" = head
  generalize hN : (if useRow e.opts s then (((s.names.getD .alloc).row)[i]?).toList.map Value.name else []) = N
  have h1 : (if useRow e.opts s then (rd (s.names.getD .alloc).row i).bind (addName e (head, 32)) else .ok (head, 32)) = Res.ok (st head (N.map (frag e))) := by
    by_cases hu : useRow e.opts s
    · obtain ⟨x, hx, hm⟩ := hname hu
      rw [if_pos hu] at hN ⊢
      have hr : rd (s.names.getD .alloc).row i = .ok x := rd_eq_ok.2 hx
      rw [hr, ← hN, hx]
      cases hpr : Parse.prepString e.st e.nan false x with
      | none => exact absurd ((prep_missing e x).1 hpr) hm
      | some f => simp [Res.bind, addName, hpr, st, frag, b1, List.intercalate]
    · rw [if_neg hu] at hN ⊢
      rw [← hN]; rfl
  rw [h1]
  simp only [Res.bind]
  rw [part_numbers e head s.vector i _ (fun v hv => by rw [h.vector v hv]; exact hi)]
  simp only [Res.bind]
  have h3 : ∀ fs, part (s.matrix.map (·.rows)) i (fun q r => r.foldl (addNumber e) q) (st head fs) =
      .ok (st head (fs ++ (match s.matrix with | none => [] | some m => (m.rows[i]?).toList.flatten.map Value.num).map (frag e))) := by
    intro fs
    cases hm : s.matrix with
    | none => simp [part]
    | some m =>
      have hlt : i < m.rows.length := by rw [(h.matrix m hm).1]; exact hi
      simp only [part, Option.map_some, rd_of_lt hlt, Res.map, numbers_push, List.getElem?_eq_getElem hlt]
      simp [Function.comp_def]
  rw [h3]
  simp only [Res.bind]
  have h4 : ∀ fs, part (if s.textWidth = 0 then none else some s.text) i (fun q r => r.foldl (addText e) q) (st head fs) =
      .ok (st head (fs ++ ((s.text[i]?).toList.flatten.map Value.str).map (frag e))) := by
    intro fs
    rcases h.text with ⟨ht, hw⟩ | ⟨ht, hw⟩
    · have hlt : i < s.text.length := by omega
      have hl := hw _ (List.getElem_mem hlt)
      by_cases h0 : s.textWidth = 0
      · rw [h0, List.length_eq_zero_iff] at hl
        simp [part, h0, List.getElem?_eq_getElem hlt, hl]
      · simp only [part, if_neg h0, rd_of_lt hlt, Res.map, texts_push, List.getElem?_eq_getElem hlt]
        simp [Function.comp_def]
    · simp [part, hw, ht]
  rw [h4]
  simp only [Res.bind]
  rw [part_numbers e head s.weights i _ (fun v hv => by rw [h.weights v hv]; exact hi)]
  simp only [Res.map]
  have e1 : ∀ A B C D E : List (Value V), A.map (frag e) ++ B.map (frag e) ++ C.map (frag e) ++ D.map (frag e) ++ E.map (frag e) = (A ++ B ++ C ++ D ++ E).map (frag e) := by simp
  rw [e1]
  have hv : N ++ (match s.vector with | none => [] | some v => (v[i]?).toList.map Value.num) ++ (match s.matrix with | none => [] | some m => (m.rows[i]?).toList.flatten.map Value.num) ++
      (s.text[i]?).toList.flatten.map Value.str ++ (match s.weights with | none => [] | some w => (w[i]?).toList.map Value.num) = rowValues e s i := by
    rw [← hN]; rfl
  rw [hv]
  obtain ⟨v0, vs, e0⟩ : ∃ v0 vs, rowValues e s i = v0 :: vs := List.exists_cons_of_ne_nil hne
  have hall : ∀ v ∈ rowValues e s i, Reads e v (frag e v) ∧ Whole (frag e v) := fun v hv =>
    token_frag e v hp.g fun x hx => hp.str x (hx.elim (fun h => Or.inl (h ▸ hv)) fun h => Or.inr (h ▸ hv))
  rw [e0] at hall ⊢
  refine ⟨32 :: List.intercalate [44] (frag e v0 :: vs.map (frag e)), by simp [st], ?_⟩
  have sp : Whole [32] := whole_bare (by intro c hc; simp at hc; subst hc; decide)
  have e2 : 32 :: List.intercalate [44] (frag e v0 :: vs.map (frag e)) = List.intercalate [44] ((32 :: frag e v0) :: vs.map (frag e)) := by
    cases vs <;> simp [List.intercalate]
  rw [e2, split_parts, List.nil_append]
  · refine .cons ?_ ?_
    · obtain ⟨a, t, b, h1, h2, h3⟩ := (hall v0 List.mem_cons_self).1
      exact ⟨32 :: a, t, b, by rw [h1]; simp, by simpa using h2, h3⟩
    · rw [List.forall₂_map_right_iff, List.forall₂_same]
      exact fun v hv => (hall v (List.mem_cons_of_mem _ hv)).1
  · intro x hx
    rcases List.mem_cons.1 hx with rfl | hx
    · exact sp.append (hall v0 List.mem_cons_self).2
    · obtain ⟨v, hv, rfl⟩ := List.mem_map.1 hx
      exact (hall v (List.mem_cons_of_mem _ hv)).2

/-- **C209 (columns).** A row has as many values as the table that is created has columns. -/
theorem C209_columns (e : Env V) (s : ToDb.Set V) (n : Nat) (h : s.Rect n) (i : Nat) (hi : i < n) (hname : useRow e.opts s = true → i < (s.names.getD .alloc).row.length) :
    (rowValues e s i).length = (columns e.opts s).length := by
  have h1 : ((if useRow e.opts s then (((s.names.getD .alloc).row)[i]?).toList.map Value.name else []) : List (Value V)).length = (if useRow e.opts s then e.opts.nameColumn.toList else []).length := by
    by_cases hu : useRow e.opts s
    · rw [if_pos hu, if_pos hu, List.getElem?_eq_getElem (hname hu)]
      unfold useRow at hu
      cases hc : e.opts.nameColumn with
      | none => rw [hc] at hu; simp at hu
      | some c => rfl
    · rw [if_neg hu, if_neg hu]; rfl
  have h2 : ((match s.vector with | none => [] | some v => (v[i]?).toList.map Value.num) : List (Value V)).length = (match s.vector with | none => ([] : List CStr) | some _ => [((s.names.getD .alloc).vector.getD (str "vector"))]).length := by
    cases hv : s.vector with
    | none => rfl
    | some v => have := h.vector v hv; simp [List.getElem?_eq_getElem (show i < v.length by omega)]
  have h3 : ((match s.matrix with | none => [] | some m => (m.rows[i]?).toList.flatten.map Value.num) : List (Value V)).length = (match s.matrix with | none => ([] : List CStr) | some m => (List.range m.width).map (colName (s.names.getD .alloc).col "c")).length := by
    cases hm : s.matrix with
    | none => rfl
    | some m =>
      have hlt : i < m.rows.length := by rw [(h.matrix m hm).1]; exact hi
      simp [List.getElem?_eq_getElem hlt, (h.matrix m hm).2 _ (List.getElem_mem hlt)]
  have h4 : ((s.text[i]?).toList.flatten.map (Value.str (V := V))).length = s.textWidth := by
    rcases h.text with ⟨ht, hw⟩ | ⟨ht, hw⟩
    · have hlt : i < s.text.length := by omega
      simp [List.getElem?_eq_getElem hlt, hw _ (List.getElem_mem hlt)]
    · simp [ht, hw]
  have h5 : ((match s.weights with | none => [] | some w => (w[i]?).toList.map Value.num) : List (Value V)).length = (match s.weights with | none => ([] : List CStr) | some _ => [str "weights"]).length := by
    cases hv : s.weights with
    | none => rfl
    | some v => have := h.weights v hv; simp [List.getElem?_eq_getElem (show i < v.length by omega)]
  unfold rowValues columns
  simp only [List.length_append, h1, h2, h3, h4, h5, List.length_map, List.length_range]
  cases s.vector <;> cases s.matrix <;> cases s.weights <;> rfl

theorem stmts_ok (e : Env V) (s : ToDb.Set V) (tab : CStr) : ∀ (k i : Nat), (∀ j, i ≤ j → j < i + k → ∃ x, rowStmt e s (if j = 0 then str " " else []) tab j = .ok x) →
    ∃ l, stmts e s tab k i = .ok l ∧ l.length = k ∧ ∀ j < k, ∃ x, l[j]? = some x ∧ rowStmt e s (if i + j = 0 then str " " else []) tab (i + j) = .ok x
  | 0, i, _ => ⟨[], rfl, rfl, fun j hj => absurd hj (Nat.not_lt_zero j)⟩
  | k + 1, i, h => by
    obtain ⟨x, hx⟩ := h i (Nat.le_refl _) (by omega)
    obtain ⟨l, h1, h2, h3⟩ := stmts_ok e s tab k (i + 1) (fun j a b => h j (by omega) (by omega))
    refine ⟨x :: l, by simp only [stmts, hx, Res.bind, h1, Res.map], by simp [h2], fun j hj => ?_⟩
    cases j with
    | zero => exact ⟨x, rfl, hx⟩
    | succ j =>
      obtain ⟨y, hy, hy2⟩ := h3 j (by omega)
      exact ⟨y, by simpa using hy, by rw [show i + (j + 1) = i + 1 + j by omega]; exact hy2⟩

/-- **C209.** The whole call: one statement is run for each row, in order, as described in `C209_row`; nothing else is run, and the result is 0. -/
theorem C209_all {D : Type} (e : Env V) (exec : CStr → D → D) (s : ToDb.Set V) (n : Nat) (h : s.Rect n) (tab : CStr) (d : D) (hp : ∀ i < n, Plain e s i) (hne : ∀ i < n, rowValues e s i ≠ [])
    (hname : useRow e.opts s = true → ∀ i < n, ∃ x, ((s.names.getD .alloc).row)[i]? = some x ∧ ¬ Missing e x) :
    ∃ l : List CStr, dataToDbWide e exec s tab d = .ok (true, l.foldl (fun d x => exec x d) d) ∧ l.length = n ∧
      ∀ i < n, ∃ body pre, l[i]? = some (pre ++ str " \n insert into " ++ tab ++ str " values(" ++ body ++ str ");") ∧ (∀ c ∈ pre, c = 32) ∧ List.Forall₂ (Reads e) (rowValues e s i) (split none [] body) := by
  have hrow : ∀ q0 i, i < n → _ := fun q0 i hi => C209_row e s n h q0 tab i hi (hp i hi) (hne i hi) (fun hu => hname hu i hi)
  obtain ⟨l, h1, h2, h3⟩ := stmts_ok e s tab n 0 (fun j _ hj => by obtain ⟨b, hb, _⟩ := hrow (if j = 0 then str " " else []) j (by omega); exact ⟨_, hb⟩)
  refine ⟨l, ?_, h2, fun i hi => ?_⟩
  · unfold dataToDbWide
    rw [maxsize_rect s n h, h1]; rfl
  · obtain ⟨x, hx, hx2⟩ := h3 i hi
    rw [Nat.zero_add] at hx2
    obtain ⟨b, hb, hb2⟩ := hrow (if i = 0 then str " " else []) i hi
    rw [hb] at hx2
    cases hx2
    refine ⟨b, _, hx, ?_, hb2⟩
    split
    · rw [bytes.1]; simp
    · simp

/-- **C209 (refuted: numbers are kept).** Two numbers that `%g`, of six digits, prints in the same way are the same in the statement: it is not possible to get the number back from the table. -/
theorem C209_rounding_refuted (e : Env V) (a b : V) (ha : e.cls a = .other) (hb : e.cls b = .other) (hg : e.g a = e.g b) (nm : Option Names) (q0 tab : CStr) :
    rowStmt e ⟨nm, some [a], none, none, 0, []⟩ q0 tab 0 = rowStmt e ⟨nm, some [b], none, none, 0, []⟩ q0 tab 0 := by
  have hu : useRow e.opts ⟨nm, some [a], none, none, 0, []⟩ = useRow e.opts ⟨nm, some [b], none, none, 0, []⟩ := rfl
  have ht : ∀ q, part (some [a]) 0 (addNumber e) q = part (some [b]) 0 (addNumber e) q := fun q => by simp [part, rd, Res.map, addNumber, ha, hb, hg, numText]
  unfold rowStmt
  rw [hu]
  simp only [ht]

/-- **C209 (refuted: as with fewer columns).** A missing text cell becomes an empty string here, where the other path stores NULL. -/
theorem C209_missing_refuted (e : Env V) (s : CStr) (h : Missing e s) : (∀ t, Token e (.str s) t → Parse.sqlLiteral t []) ∧ textCell e.opts s = none := by
  constructor
  · rintro t (⟨_, rfl⟩ | ⟨h2, _⟩)
    · exact ⟨[39], by rw [bytes.2.2.2.2.2.2.2], by simp [Parse.sqlBody]⟩
    · exact absurd h h2
  · rcases h with rfl | ⟨n, h1, h2⟩
    · simp [textCell]
    · simp [textCell, Env.opts, h1, h2]

/-- **C209 (refuted: row names).** A missing row name is given to `printf` as a NULL. -/
theorem C209_name_refuted (e : Env V) (s : ToDb.Set V) (q0 tab x : CStr) (i : Nat) (hu : useRow e.opts s = true) (hx : ((s.names.getD .alloc).row)[i]? = some x) (hm : Missing e x) : rowStmt e s q0 tab i = .ub := by
  have hr : rd (s.names.getD .alloc).row i = .ok x := rd_eq_ok.2 hx
  have hpr := (prep_missing e x).2 hm
  simp [rowStmt, hu, hr, Res.bind, addName, hpr, Res.map]

/-- **C209 (refuted: failure is reported).** Whatever the database does with the statements, the result is 0. -/
theorem C209_result_refuted {D : Type} (e : Env V) (exec : CStr → D → D) (s : ToDb.Set V) (tab : CStr) (d : D) (b : Bool) (d' : D) (h : dataToDbWide e exec s tab d = .ok (b, d')) : b = true := by
  unfold dataToDbWide at h
  cases hs : stmts e s tab (maxsize s) 0 with
  | ub => rw [hs] at h; cases h
  | ok l => rw [hs] at h; cases h; rfl

/-- Numbers for examples: 0 to 9, of which 7 is NaN and 8 is infinite. -/
def digits : Env Nat := ⟨fun v => if v = 7 then .nan else if v = 8 then .inf else .other, fun v => [48 + UInt8.ofNat (v % 10)], ⟨fun _ => 0, fun _ => .other⟩, some (str "NaN"), some (str "row_names")⟩

/-- A row with a vector, a matrix and text. -/
def sample : ToDb.Set Nat := ⟨some { Names.alloc with row := [str "r"] }, some [7], some ⟨2, [[3, 8]]⟩, some [5], 2, [[str "a,b", str ""]]⟩

example : sample.Rect 1 ∧ useRow digits.opts sample = true ∧ rowValues digits sample 0 ≠ [] ∧
    rowStmt digits sample [] (str "t") 0 = .ok (str " \n insert into t values( 'r' , NULL , 3 ,  'inf', 'a,b' , '' , 5 );") := by
  refine ⟨⟨by simp [sample], by simp [sample], by simp [sample], by simp [sample], by simp [sample]⟩, by decide +kernel, by simp [rowValues, sample], by decide +kernel⟩

example : Plain digits sample 0 := by
  refine ⟨fun v => ?_, fun x hx => ?_⟩
  · have h : ∀ k : Fin 10, Bare [48 + UInt8.ofNat k.1] := by unfold Bare; decide +kernel
    exact h ⟨v % 10, Nat.mod_lt _ (by decide)⟩
  · have : x = str "a,b" ∨ x = str "" ∨ x = str "r" := by
      simp [rowValues, sample] at hx
      rcases hx with (h | h) | h
      · exact Or.inl h
      · exact Or.inr (Or.inl h)
      · exact Or.inr (Or.inr h.2)
    have key : ∀ s : CStr, s ≠ [] → 39 ∉ s → if digits.st.used s = s.length then Bare s else 39 ∉ s := fun s h1 h2 => by
      rw [if_neg (by show ¬ 0 = s.length; intro h; exact h1 (List.length_eq_zero_iff.1 h.symm))]; exact h2
    rcases this with rfl | rfl | rfl
    · exact key _ (by decide +kernel) (by decide +kernel)
    · rw [if_pos (by decide +kernel)]
      have : str "" = [] := by decide +kernel
      rw [this]; intro c hc; cases hc
    · exact key _ (by decide +kernel) (by decide +kernel)

end Apop.Db.ToDbWide
