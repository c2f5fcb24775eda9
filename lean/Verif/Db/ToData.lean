import Verif.Name.Model

/-! # From queries to data: `apop_query_to_data`, `apop_query_to_vector`, `apop_query_to_float` (C104)

What SQLite does with a query is a list of rows handed to a callback, and maybe an error after them. A row is a list of strings or NULLs, as many as there are column names. Numbers are any type, with any `atof`. -/

namespace Apop.Db.ToData

/-- What SQLite gives for a query: the columns' names, the rows, and whether there is an error message at the end. -/
structure Answer where
  cols : List CStr
  rows : List (List (Option CStr))
  err : Bool := false

/-- The options the code looks at, and the C library's `atof`. -/
structure Opts (V : Type) where
  nameColumn : Option CStr
  nanString : Option CStr
  atof : CStr → V
  nan : V

variable {V : Type}

/-- One element, apop_db.m4.c:287-290. -/
def value (o : Opts V) (s : Option CStr) : V :=
  match s with
  | none => o.nan
  | some s => if s = str "NULL" then o.nan else if (match o.nanString with | none => false | some n => caseEq n s) then o.nan else o.atof s

/-- The search for the column with the names, apop_db.m4.c:271-276: the first that is the same up to case; `none` is -1. -/
def findName (o : Opts V) (cols : List CStr) : Option Nat :=
  match o.nameColumn with
  | none => none
  | some n => cols.findIdx? fun c => caseEq c n

/-- The data set while it is made: the matrix, if there is one, in rows whose cells may not have been written; and the names. -/
structure Out (V : Type) where
  matrix : Option (List (List (Option V)))
  width : Nat
  names : Names

/-- `callback_t`, apop_db_sqlite.c:176-180; `out = none` is NULL, which is the same as `firstcall`. -/
structure State (V : Type) where
  namecol : Option Nat := none
  row : Nat := 0
  out : Option (Out V) := none

/-- The names of the columns, apop_db.m4.c:278-280, from the `j`-th on. -/
def addCols (nc : Option Nat) : Nat → List CStr → Names → Names
  | _, [], n => n
  | j, c :: cs, n => addCols nc (j + 1) cs (if nc = some j then n else (n.add (some c) 'c').1)

/-- What is there before the cells are written, apop_db.m4.c:269-283: on the first call the search and the allocation, later one more row. -/
def prepare (o : Opts V) (cols : List CStr) (s : State V) : Option Nat × Out V :=
  match s.out with
  | none =>
    let nc := findName o cols
    let w := cols.length - (if nc.isSome then 1 else 0)
    (nc, ⟨if w = 0 then none else some [List.replicate w none], w, addCols nc 0 cols .alloc⟩)
  | some out => (s.namecol, { out with matrix := out.matrix.map fun m => m ++ [List.replicate out.width none] })

/-- The loop over the elements of a row, apop_db.m4.c:284-295, from the `j`-th on; `shift` is `ncfound`, `r` the row that is written. -/
def cells (o : Opts V) (nc : Option Nat) (r : Nat) : Nat → Nat → List (Option CStr) → Out V → Res (Out V)
  | _, _, [], out => .ok out
  | j, shift, a :: as, out =>
    if nc = some j then cells o nc r (j + 1) 1 as { out with names := (out.names.add a 'r').1 }
    else
      match out.matrix with
      | none => .ub
      | some m => (rd m r).bind fun row => (wr row (j - shift) (some (value o a))).bind fun row' => (wr m r row').bind fun m' =>
          cells o nc r (j + 1) shift as { out with matrix := some m' }

/-- `db_to_table`, apop_db.m4.c:265-298. -/
def dbToTable (o : Opts V) (cols : List CStr) (s : State V) (argv : List (Option CStr)) : Res (State V) :=
  (cells o (prepare o cols s).1 s.row 0 0 argv (prepare o cols s).2).bind fun out => .ok ⟨(prepare o cols s).1, s.row + 1, some out⟩

/-- The callback on the rows, in order. -/
def run (o : Opts V) (cols : List CStr) : State V → List (List (Option CStr)) → Res (State V)
  | s, [] => .ok s
  | s, r :: rs => (dbToTable o cols s r).bind fun s' => run o cols s' rs

/-- A data set with the letter in its `error`. -/
structure Result (V : Type) where
  out : Out V
  error : Bool

/-- `ERRCHECK_SET_ERROR`, apop_db.m4.c:22. -/
def checkError (err : Bool) (out : Option (Out V)) : Option (Result V) :=
  if err then some ⟨out.getD ⟨none, 0, .alloc⟩, true⟩ else out.map (⟨·, false⟩)

/-- `apop_query_to_data`, apop_db.m4.c:319-338, with SQLite; `none` is NULL. Simplified: the query's text, which the error message reads after it was freed, is left out. -/
def queryToData (o : Opts V) (a : Answer) : Res (Option (Result V)) :=
  (run o a.cols {} a.rows).bind fun s => .ok (checkError a.err s.out)

/-- `apop_query_to_vector`, apop_db.m4.c:367-392: the first column; NULL is `none`, cells not written are undefined. -/
def queryToVector (o : Opts V) (a : Answer) : Res (Option (List (Option V))) :=
  (queryToData o a).bind fun d =>
    match d with
    | none => .ok none
    | some d =>
      match d.out.matrix with
      | none => .ub
      | some m => .ok (some (m.map fun r => (r[0]?).join))

/-- `apop_query_to_float`, apop_db.m4.c:409-429: the first element. -/
def queryToFloat (o : Opts V) (a : Answer) : Res V :=
  (queryToData o a).bind fun d =>
    match d with
    | none => .ok o.nan
    | some d =>
      if d.error then .ok o.nan
      else match d.out.matrix with
        | none => .ok o.nan
        | some m => match ((m[0]?).bind fun r => r[0]?).join with
          | none => .ub
          | some v => .ok v

/-! ## Specification -/

/-- A list without the column with the names. -/
def without {α : Type} (nc : Option Nat) (l : List α) : List α :=
  match nc with
  | none => l
  | some k => l.eraseIdx k

/-- What is in the column with the names. -/
def nameOf (nc : Option Nat) (r : List (Option CStr)) : Option CStr := nc.bind fun k => (r[k]?).join

/-- An answer as SQLite gives it: all rows as long as the list of columns. -/
def Answer.Ok (a : Answer) : Prop := ∀ r ∈ a.rows, r.length = a.cols.length

/-! ## Proofs -/

theorem addCols_eq (nc : Option Nat) : ∀ (cs : List CStr) (j : Nat) (n : Names), (∀ k, nc = some k → k < j) →
    (addCols nc j cs n).col = n.col ++ cs ∧ (addCols nc j cs n).row = n.row := by
  intro cs
  induction cs with
  | nil => intro j n _; simp [addCols]
  | cons c cs ih =>
    intro j n h
    have hne : nc ≠ some j := fun e => by have := h j e; omega
    have := ih (j + 1) (n.add (some c) 'c').1 (fun k hk => by have := h k hk; omega)
    rw [addCols, if_neg hne]
    simp only [Names.add] at this ⊢
    simpa using this

theorem addCols_spec (nc : Option Nat) : ∀ (cs : List CStr) (j : Nat) (n : Names),
    (∀ k, nc = some k → j ≤ k) →
    (addCols nc j cs n).col = n.col ++ without (nc.map (· - j)) cs ∧ (addCols nc j cs n).row = n.row := by
  intro cs
  induction cs with
  | nil => intro j n _; cases nc <;> simp [addCols, without]
  | cons c cs ih =>
    intro j n h
    rw [addCols]
    by_cases e : nc = some j
    · rw [if_pos e]
      have := addCols_eq nc cs (j + 1) n (fun k hk => by rw [e] at hk; cases hk; omega)
      subst e
      simpa [without] using this
    · rw [if_neg e]
      have := ih (j + 1) (n.add (some c) 'c').1 (fun k hk => by
        have := h k hk
        rcases Nat.lt_or_ge j k with hlt | hge
        · omega
        · exact absurd (by rw [hk]; congr 1; omega) e)
      refine ⟨?_, by simpa [Names.add] using this.2⟩
      rw [this.1]
      cases nc with
      | none => simp [Names.add, without]
      | some k =>
        have hk := h k rfl
        have hne : k ≠ j := fun e' => e (by rw [e'])
        have : k - j = (k - (j + 1)) + 1 := by omega
        simp [Names.add, without, this]

/-- A row of cells, all written. -/
def written (o : Opts V) (r : List (Option CStr)) : List (Option V) := r.map fun a => some (value o a)

theorem cells_after (o : Opts V) (nc : Option Nat) (r : Nat) : ∀ (as : List (Option CStr)) (j shift : Nat) (out : Out V) (m : List (List (Option V))) (done rest : List (Option V)),
    out.matrix = some m → m[r]? = some (done ++ rest) → rest.length = as.length → done.length = j - shift → shift ≤ j → (∀ k, nc = some k → k < j) →
    cells o nc r j shift as out = .ok { out with matrix := some (m.set r (done ++ written o as)) } := by
  intro as
  induction as with
  | nil =>
    intro j shift out m done rest hm hr hl _ _ _
    have : rest = [] := List.length_eq_zero_iff.1 (by simpa using hl)
    subst this
    have hlt : r < m.length := (List.getElem?_eq_some_iff.1 hr).1
    have he : m.set r (done ++ []) = m := by
      rw [List.getElem?_eq_getElem hlt] at hr
      simp only [Option.some.injEq] at hr
      rw [← hr]; exact List.set_getElem_self hlt
    simp only [cells, written, List.map_nil, he, ← hm]
  | cons a as ih =>
    intro j shift out m done rest hm hr hl hd hs hk
    obtain ⟨x, rest', rfl⟩ : ∃ x rest', rest = x :: rest' := by
      cases rest with
      | nil => simp at hl
      | cons x rest' => exact ⟨x, rest', rfl⟩
    have hne : nc ≠ some j := fun e => by have := hk j e; omega
    have hlt : r < m.length := (List.getElem?_eq_some_iff.1 hr).1
    have hw : wr (done ++ x :: rest') (j - shift) (some (value o a)) = .ok (done ++ some (value o a) :: rest') := by
      rw [wr_of_lt (by simp; omega), ← hd, List.set_append_right _ _ (Nat.le_refl _)]
      simp
    rw [cells, if_neg hne, hm]
    simp only [rd_eq_ok.2 hr, Res.bind, hw, wr_of_lt hlt]
    rw [ih (j + 1) shift _ (m.set r (done ++ some (value o a) :: rest')) (done ++ [some (value o a)]) rest' rfl (by simp [hlt]) (by simpa using hl) (by simp; omega) (by omega) (fun k h => by have := hk k h; omega)]
    simp [written]

theorem cells_before (o : Opts V) (nc : Option Nat) (r : Nat) : ∀ (as : List (Option CStr)) (j : Nat) (out : Out V) (m : List (List (Option V))) (done rest : List (Option V)),
    out.matrix = some m → m[r]? = some (done ++ rest) → rest.length + (if nc.isSome then 1 else 0) = as.length → done.length = j → (∀ k, nc = some k → j ≤ k ∧ k < j + as.length) →
    ∃ out', cells o nc r j 0 as out = .ok out' ∧ out'.matrix = some (m.set r (done ++ written o (without (nc.map (· - j)) as))) ∧ out'.width = out.width ∧
      out'.names.col = out.names.col ∧ out'.names.row = out.names.row ++ (nameOf (nc.map (· - j)) as).toList := by
  intro as
  induction as with
  | nil =>
    intro j out m done rest hm hr hl hd hk
    cases nc with
    | some k => have := hk k rfl; simp at this; omega
    | none =>
      refine ⟨_, cells_after o none r [] j 0 out m done rest hm hr (by simpa using hl) (by omega) (by omega) (fun k h => by simp at h), ?_⟩
      simp [without, nameOf]
  | cons a as ih =>
    intro j out m done rest hm hr hl hd hk
    by_cases e : nc = some j
    · subst e
      rw [cells, if_pos rfl]
      refine ⟨_, cells_after o (some j) r as (j + 1) 1 _ m done rest hm hr (by simpa using hl) (by omega) (by omega) (fun k h => by cases h; omega), ?_⟩
      refine ⟨by simp [without], rfl, ?_, ?_⟩
      · cases a <;> simp [Names.add]
      · cases a <;> simp [Names.add, nameOf]
    · have hk' : ∀ k, nc = some k → j + 1 ≤ k ∧ k < j + 1 + as.length := by
        intro k h
        have := hk k h
        have hne : k ≠ j := fun e' => e (by rw [h, e'])
        simp at this
        omega
      have hl' : 0 < rest.length := by
        cases nc with
        | none => simp at hl; omega
        | some k => have := hk' k rfl; simp at hl; omega
      obtain ⟨x, rest', rfl⟩ : ∃ x rest', rest = x :: rest' := by
        cases rest with
        | nil => simp at hl'
        | cons x rest' => exact ⟨x, rest', rfl⟩
      have hlt : r < m.length := (List.getElem?_eq_some_iff.1 hr).1
      have hw : wr (done ++ x :: rest') (j - 0) (some (value o a)) = .ok (done ++ some (value o a) :: rest') := by
        rw [wr_of_lt (by simp; omega), Nat.sub_zero, ← hd, List.set_append_right _ _ (Nat.le_refl _)]
        simp
      rw [cells, if_neg e, hm]
      simp only [rd_eq_ok.2 hr, Res.bind, hw, wr_of_lt hlt]
      obtain ⟨out', h1, h2, h3, h4, h5⟩ := ih (j + 1) { out with matrix := some (m.set r (done ++ some (value o a) :: rest')) } (m.set r (done ++ some (value o a) :: rest')) (done ++ [some (value o a)]) rest' rfl (by simp [hlt]) (by simp at hl ⊢; omega) (by simp; omega) hk'
      refine ⟨out', h1, ?_, h3, h4, ?_⟩
      · rw [h2]
        cases nc with
        | none => simp [without, written]
        | some k =>
          have : k - j = (k - (j + 1)) + 1 := by have := hk' k rfl; omega
          simp [without, written, this]
      · rw [h5]
        cases nc with
        | none => simp [nameOf]
        | some k =>
          have : k - j = (k - (j + 1)) + 1 := by have := hk' k rfl; omega
          simp [nameOf, this]

theorem findName_lt (o : Opts V) (cols : List CStr) (k : Nat) (h : findName o cols = some k) : k < cols.length := by
  unfold findName at h
  split at h
  · simp at h
  · exact (List.findIdx?_eq_some_iff_findIdx_eq.1 h).1

/-- The width of the matrix. -/
def widthOf (nc : Option Nat) (cols : List CStr) : Nat := cols.length - (if nc.isSome then 1 else 0)

/-- What there is after some rows. -/
structure Inv (o : Opts V) (cols : List CStr) (rows : List (List (Option CStr))) (s : State V) (out : Out V) : Prop where
  isOut : s.out = some out
  nc : s.namecol = findName o cols
  row : s.row = rows.length
  width : out.width = widthOf (findName o cols) cols
  matrix : out.matrix = if widthOf (findName o cols) cols = 0 then none else some (rows.map fun r => written o (without (findName o cols) r))
  col : out.names.col = without (findName o cols) cols
  rownames : out.names.row = rows.filterMap (nameOf (findName o cols))

theorem without_length {α : Type} (nc : Option Nat) (l : List α) (h : ∀ k, nc = some k → k < l.length) : (without nc l).length = l.length - (if nc.isSome then 1 else 0) := by
  cases nc with
  | none => simp [without]
  | some k => simp [without, List.length_eraseIdx, h k rfl]

/-- One row's cells, whether there is a matrix or not. -/
theorem cells_row (o : Opts V) (cols : List CStr) (argv : List (Option CStr)) (hl : argv.length = cols.length) (hc : cols ≠ []) (done : List (List (Option V))) (out : Out V)
    (hm : out.matrix = if widthOf (findName o cols) cols = 0 then none else some (done ++ [List.replicate (widthOf (findName o cols) cols) none])) (r : Nat) (hr : r = done.length) :
    ∃ out', cells o (findName o cols) r 0 0 argv out = .ok out' ∧
      out'.matrix = (if widthOf (findName o cols) cols = 0 then none else some (done ++ [written o (without (findName o cols) argv)])) ∧ out'.width = out.width ∧
      out'.names.col = out.names.col ∧ out'.names.row = out.names.row ++ (nameOf (findName o cols) argv).toList := by
  have hk := findName_lt o cols
  generalize findName o cols = nc at hm hk ⊢
  have hcl : 0 < cols.length := by cases cols with | nil => exact absurd rfl hc | cons => simp
  by_cases hw : widthOf nc cols = 0
  · -- only the names
    cases nc with
    | none => simp [widthOf] at hw; exact absurd hw hc
    | some k =>
      have h1 : cols.length = 1 := by simp [widthOf] at hw; omega
      have := hk k rfl
      have hk0 : k = 0 := by omega
      subst hk0
      obtain ⟨a, rfl⟩ : ∃ a, argv = [a] := List.length_eq_one_iff.1 (by omega)
      rw [if_pos hw] at hm
      refine ⟨_, by simp only [cells, if_true]; rfl, ?_⟩
      rw [if_pos hw]
      cases a <;> simp [hm, Names.add, nameOf]
  · rw [if_neg hw] at hm
    obtain ⟨out', h1, h2, h3, h4, h5⟩ := cells_before o nc r argv 0 out _ [] (List.replicate (widthOf nc cols) none) hm (by subst hr; simp) (by simp [widthOf]; split <;> omega) rfl (fun k h => ⟨by omega, by have := hk k h; omega⟩)
    refine ⟨out', h1, ?_, h3, h4, ?_⟩
    · rw [h2, if_neg hw]
      have : nc.map (· - 0) = nc := by cases nc <;> simp
      rw [this, hr]
      simp
    · have : nc.map (· - 0) = nc := by cases nc <;> simp
      rw [h5, this]

theorem step_first (o : Opts V) (cols : List CStr) (argv : List (Option CStr)) (hl : argv.length = cols.length) (hc : cols ≠ []) : ∃ s' out', dbToTable o cols {} argv = .ok s' ∧ Inv o cols [argv] s' out' := by
  have hadd := addCols_spec (findName o cols) cols 0 .alloc (fun k h => by omega)
  obtain ⟨out', h1, h2, h3, h4, h5⟩ := cells_row o cols argv hl hc [] (prepare o cols {}).2 (by simp only [prepare, widthOf]; split <;> simp_all) 0 rfl
  have e : (prepare o cols {}).1 = findName o cols := rfl
  refine ⟨⟨findName o cols, 1, some out'⟩, out', by rw [dbToTable, e, h1]; rfl, ⟨rfl, rfl, rfl, by rw [h3]; rfl, by simpa using h2, ?_, ?_⟩⟩
  · rw [h4]
    have : (findName o cols).map (· - 0) = findName o cols := by cases findName o cols <;> simp
    rw [this] at hadd
    exact hadd.1
  · rw [h5]
    have : (prepare o cols {}).2.names.row = [] := hadd.2
    rw [this]
    cases hn : nameOf (findName o cols) argv <;> simp [hn]

theorem step_next (o : Opts V) (cols : List CStr) (rows : List (List (Option CStr))) (s : State V) (out : Out V) (inv : Inv o cols rows s out) (argv : List (Option CStr)) (hl : argv.length = cols.length) (hc : cols ≠ []) :
    ∃ s' out', dbToTable o cols s argv = .ok s' ∧ Inv o cols (rows ++ [argv]) s' out' := by
  have hp : prepare o cols s = (findName o cols, { out with matrix := out.matrix.map fun m => m ++ [List.replicate out.width none] }) := by
    simp only [prepare, inv.isOut, inv.nc]
  obtain ⟨out', h1, h2, h3, h4, h5⟩ := cells_row o cols argv hl hc (rows.map fun r => written o (without (findName o cols) r)) (prepare o cols s).2
    (by rw [hp]; simp only [inv.matrix, inv.width]; split <;> simp) s.row (by simp [inv.row])
  refine ⟨⟨findName o cols, s.row + 1, some out'⟩, out', by rw [dbToTable]; simp only [hp] at h1 ⊢; rw [h1]; rfl, ⟨rfl, rfl, by simp [inv.row], ?_, ?_, ?_, ?_⟩⟩
  · rw [h3, hp]; exact inv.width
  · simpa using h2
  · rw [h4, hp]; exact inv.col
  · rw [h5, hp]
    have := inv.rownames
    cases hn : nameOf (findName o cols) argv <;> simp [this, hn]

theorem run_next (o : Opts V) (cols : List CStr) (hc : cols ≠ []) : ∀ (rs rows : List (List (Option CStr))) (s : State V) (out : Out V), Inv o cols rows s out → (∀ r ∈ rs, r.length = cols.length) →
    ∃ s' out', run o cols s rs = .ok s' ∧ Inv o cols (rows ++ rs) s' out' := by
  intro rs
  induction rs with
  | nil => intro rows s out inv _; exact ⟨s, out, rfl, by simpa using inv⟩
  | cons r rs ih =>
    intro rows s out inv h
    obtain ⟨s1, o1, e1, i1⟩ := step_next o cols rows s out inv r (h r (by simp)) hc
    obtain ⟨s2, o2, e2, i2⟩ := ih _ s1 o1 i1 (fun x hx => h x (by simp [hx]))
    exact ⟨s2, o2, by rw [run, e1]; exact e2, by simpa using i2⟩

theorem run_all (o : Opts V) (a : Answer) (ok : a.Ok) (hc : a.cols ≠ []) (hr : a.rows ≠ []) : ∃ s out, run o a.cols {} a.rows = .ok s ∧ Inv o a.cols a.rows s out := by
  obtain ⟨cols, rows, err⟩ := a
  cases rows with
  | nil => exact absurd rfl hr
  | cons r rs =>
    obtain ⟨s1, o1, e1, i1⟩ := step_first o cols r (ok r (by simp)) hc
    obtain ⟨s2, o2, e2, i2⟩ := run_next o cols hc rs [r] s1 o1 i1 (fun x hx => ok x (by simp [hx]))
    exact ⟨s2, o2, by show run o cols {} (r :: rs) = _; rw [run, e1]; exact e2, by simpa using i2⟩

/-! ## The theorems -/

/-- **C104.** For every answer with rows, and no error: the result has no error; its column names are the answer's columns, in order, without the column with the names; if there are other columns, its matrix has, in the rows' order, all their elements, all written: NaN for NULLs and the NaN string, the number for others. Its row names are the names there are. -/
theorem C104_contents (o : Opts V) (a : Answer) (ok : a.Ok) (hc : a.cols ≠ []) (hr : a.rows ≠ []) (he : a.err = false) :
    ∃ d, queryToData o a = .ok (some d) ∧ d.error = false ∧ d.out.names.col = without (findName o a.cols) a.cols ∧
      d.out.matrix = (if without (findName o a.cols) a.cols = [] then none else some (a.rows.map fun r => (without (findName o a.cols) r).map fun x => some (value o x))) ∧
      d.out.names.row = a.rows.filterMap (nameOf (findName o a.cols)) := by
  obtain ⟨s, out, h1, inv⟩ := run_all o a ok hc hr
  refine ⟨⟨out, false⟩, by rw [queryToData, h1]; simp [Res.bind, checkError, he, inv.isOut], rfl, inv.col, ?_, inv.rownames⟩
  have hlen := without_length (findName o a.cols) a.cols (findName_lt o a.cols)
  rw [inv.matrix]
  simp only [widthOf, ← hlen, List.length_eq_zero_iff]
  rfl

/-- The column with the names: the first whose name is the option's, up to case. -/
theorem C104_name_column (o : Opts V) (cols : List CStr) (n : CStr) (h : o.nameColumn = some n) (k : Nat) :
    findName o cols = some k ↔ ∃ c, cols[k]? = some c ∧ caseEq c n = true ∧ ∀ j, j < k → ∀ c', cols[j]? = some c' → caseEq c' n = false := by
  simp only [findName, h, List.findIdx?_eq_some_iff_getElem]
  constructor
  · rintro ⟨hk, h1, h2⟩
    refine ⟨cols[k], by simp [hk], h1, fun j hj c' hc' => ?_⟩
    have := h2 j hj
    have hjl : j < cols.length := by omega
    rw [List.getElem?_eq_getElem hjl] at hc'
    cases hc'
    simpa using this
  · rintro ⟨c, h1, h2, h3⟩
    obtain ⟨hk, rfl⟩ := List.getElem?_eq_some_iff.1 h1
    exact ⟨hk, h2, fun j hj => by simpa using h3 j hj _ (List.getElem?_eq_getElem (by omega))⟩

/-- **C104 (row names).** If no element of the column with the names is NULL, each row has its name. -/
theorem C104_row_names (o : Opts V) (a : Answer) (ok : a.Ok) (hc : a.cols ≠ []) (hr : a.rows ≠ []) (he : a.err = false) (k : Nat) (hk : findName o a.cols = some k)
    (hn : ∀ r ∈ a.rows, ∃ s, r[k]? = some (some s)) : ∃ d, queryToData o a = .ok (some d) ∧ d.out.names.row.length = a.rows.length ∧
      ∀ (i : Nat) (r : List (Option CStr)), a.rows[i]? = some r → ∃ s, r[k]? = some (some s) ∧ d.out.names.row[i]? = some s := by
  obtain ⟨d, h1, _, _, _, h5⟩ := C104_contents o a ok hc hr he
  have key : ∀ rows : List (List (Option CStr)), (∀ r ∈ rows, ∃ s, r[k]? = some (some s)) → (rows.filterMap (nameOf (some k))).map some = rows.map fun r => (r[k]?).join := by
    intro rows
    induction rows with
    | nil => simp
    | cons r rs ih =>
      intro h
      obtain ⟨s, hs⟩ := h r (by simp)
      have := ih fun x hx => h x (by simp [hx])
      rw [List.filterMap_cons]
      simp [nameOf, hs] at this ⊢
      exact this
  rw [hk] at h5
  have hkey := key a.rows hn
  rw [← h5] at hkey
  refine ⟨d, h1, by simpa using congrArg List.length hkey, fun i r hi => ?_⟩
  obtain ⟨s, hs⟩ := hn r (List.mem_of_getElem? hi)
  refine ⟨s, hs, ?_⟩
  have := congrArg (·[i]?) hkey
  simp [hi, hs] at this
  exact this

/-- **C104 (NULL row names) fails**: a NULL in the column with the names adds no name, so that the rows after it have the next rows' names. For any answer, the names number the rows whose name is not NULL; here the name of the second row is at the first, and the second has none. -/
theorem C104_null_name_refuted (o : Opts V) (h : o.nameColumn = some (str "row_names")) :
    ∃ d, queryToData o ⟨[str "row_names", str "x"], [[none, some (str "1")], [some (str "b"), some (str "2")]], false⟩ = .ok (some d) ∧ d.out.names.row = [str "b"] ∧
      d.out.matrix = some [[some (value o (some (str "1")))], [some (value o (some (str "2")))]] := by
  have hf : findName o [str "row_names", str "x"] = some 0 := by
    simp only [findName, h]; decide +kernel
  obtain ⟨d, h1, _, _, h4, h5⟩ := C104_contents o ⟨[str "row_names", str "x"], [[none, some (str "1")], [some (str "b"), some (str "2")]], false⟩ (by intro r hr; simp at hr; rcases hr with rfl | rfl <;> rfl) (by simp) (by simp) rfl
  rw [hf] at h4 h5
  refine ⟨d, h1, by rw [h5]; simp [nameOf], by rw [h4]; simp [without]⟩

/-- **C104 (no rows).** Without rows, and without error, the result is NULL. -/
theorem C104_no_rows (o : Opts V) (cols : List CStr) : queryToData o ⟨cols, [], false⟩ = .ok none := rfl

/-- **C104 (errors).** If the database has an error, the result always is a set with the error's letter. -/
theorem C104_error (o : Opts V) (a : Answer) (ok : a.Ok) (hc : a.cols ≠ []) (he : a.err = true) : ∃ d, queryToData o a = .ok (some d) ∧ d.error = true := by
  by_cases hr : a.rows = []
  · refine ⟨⟨⟨none, 0, .alloc⟩, true⟩, ?_, rfl⟩
    rw [queryToData, hr, he]; rfl
  · obtain ⟨s, out, h1, inv⟩ := run_all o a ok hc hr
    exact ⟨⟨out, true⟩, by rw [queryToData, h1]; simp [Res.bind, checkError, he, inv.isOut], rfl⟩

/-- **C104 (vector).** If there is a column that is not that with the names, the vector is the first such column; NULL if there are no rows. -/
theorem C104_vector (o : Opts V) (a : Answer) (ok : a.Ok) (he : a.err = false) (hw : without (findName o a.cols) a.cols ≠ []) :
    queryToVector o a = .ok (if a.rows = [] then none else some (a.rows.map fun r => ((without (findName o a.cols) r).head?.map (value o)))) := by
  by_cases hr : a.rows = []
  · obtain ⟨cols, rows, err⟩ := a
    simp only at hr he; subst hr; subst he; rfl
  · have hc : a.cols ≠ [] := by
      intro e; rw [e] at hw; exact hw (by cases findName o [] <;> simp [without])
    obtain ⟨d, h1, _, _, h4, _⟩ := C104_contents o a ok hc hr he
    rw [if_neg hw] at h4
    rw [queryToVector, h1]
    simp only [Res.bind, h4, if_neg hr, List.map_map]
    congr 2
    apply List.map_congr_left
    intro r _
    cases h : without (findName o a.cols) r <;> simp [h]

/-- **C104 (number).** The number is the first row's first element of a column that is not that with the names; NaN if there are no rows, no such column, or if there was an error. -/
theorem C104_float (o : Opts V) (a : Answer) (ok : a.Ok) (hc : a.cols ≠ []) :
    queryToFloat o a = .ok (if a.err = true then o.nan else match a.rows with | [] => o.nan | r :: _ => match without (findName o a.cols) r with | [] => o.nan | x :: _ => value o x) := by
  by_cases he : a.err = true
  · obtain ⟨d, h1, h2⟩ := C104_error o a ok hc he
    rw [queryToFloat, h1]; simp [Res.bind, h2, he]
  · have he' : a.err = false := by simpa using he
    rw [if_neg he]
    obtain ⟨cols, rows, err⟩ := a
    simp only at he'; subst he'
    cases rows with
    | nil => rfl
    | cons r rs =>
      obtain ⟨d, h1, h2, _, h4, _⟩ := C104_contents o ⟨cols, r :: rs, false⟩ ok hc (by simp) rfl
      simp only at hc h4
      rw [queryToFloat, h1]
      have hl : r.length = cols.length := ok r (by simp)
      have hlen : (without (findName o cols) r).length = (without (findName o cols) cols).length := by
        rw [without_length _ _ (findName_lt o cols), without_length _ _ (fun k h => by rw [hl]; exact findName_lt o cols k h), hl]
      by_cases hw : without (findName o cols) cols = []
      · rw [if_pos hw] at h4
        have : without (findName o cols) r = [] := List.length_eq_zero_iff.1 (by rw [hlen, hw]; rfl)
        simp [Res.bind, h2, h4, this]
      · rw [if_neg hw] at h4
        cases hx : without (findName o cols) r with
        | nil => rw [hx] at hlen; exact absurd (List.length_eq_zero_iff.1 hlen.symm) hw
        | cons x xs => simp [Res.bind, h2, h4, hx]

/-- **C104 (vectors of failed queries) fails**: if the database could not run the query, or the only column is that with the names, the vector function reads a NULL pointer, where NULL is documented. -/
theorem C104_vector_refuted (o : Opts V) : (∀ cols, queryToVector o ⟨cols, [], true⟩ = .ub) ∧
    ∀ c x, o.nameColumn = some c → queryToVector o ⟨[c], [[x]], false⟩ = .ub := by
  refine ⟨fun cols => rfl, fun c x h => ?_⟩
  have hf : findName o [c] = some 0 := by simp [findName, h, List.findIdx?_cons, caseEq_refl]
  obtain ⟨d, h1, _, _, h4, _⟩ := C104_contents o ⟨[c], [[x]], false⟩ (by intro r hr; simp at hr; rw [hr]; rfl) (by simp) (by simp) rfl
  rw [hf] at h4
  rw [queryToVector, h1]
  simp [Res.bind, h4, without]

/-- Two columns and a name: the hypotheses hold, and the set is what one expects; the name column is found whatever its case. -/
example : ∃ d, queryToData (V := CStr) ⟨some (str "row_names"), some (str "NaN"), id, []⟩
      ⟨[str "a", str "Row_Names", str "b"], [[some (str "1"), some (str "x"), none], [some (str "nan"), some (str "y"), some (str "4")]], false⟩ = .ok (some d) ∧
      d.out.matrix = some [[some (str "1"), some []], [some [], some (str "4")]] ∧ d.out.names.col = [str "a", str "b"] ∧ d.out.names.row = [str "x", str "y"] := by
  have hf : findName (V := CStr) ⟨some (str "row_names"), some (str "NaN"), id, []⟩ [str "a", str "Row_Names", str "b"] = some 1 := by decide +kernel
  obtain ⟨d, h1, _, h3, h4, h5⟩ := C104_contents (V := CStr) ⟨some (str "row_names"), some (str "NaN"), id, []⟩
    ⟨[str "a", str "Row_Names", str "b"], [[some (str "1"), some (str "x"), none], [some (str "nan"), some (str "y"), some (str "4")]], false⟩
    (by intro r hr; simp at hr; rcases hr with rfl | rfl <;> rfl) (by simp) (by simp) rfl
  rw [hf] at h3 h4 h5
  refine ⟨d, h1, ?_, h3, h5⟩
  rw [h4]
  decide +kernel

/-- What an element becomes: NaN for a NULL, for the string `NULL` and for the NaN string in any case; the number that `atof` reads otherwise. -/
theorem C104_value (o : Opts V) : value o none = o.nan ∧ value o (some (str "NULL")) = o.nan ∧ (∀ n s, o.nanString = some n → n.map lower = s.map lower → value o (some s) = o.nan) ∧
    ∀ s, s ≠ str "NULL" → (∀ n, o.nanString = some n → n.map lower ≠ s.map lower) → value o (some s) = o.atof s := by
  refine ⟨rfl, by simp [value], ?_, ?_⟩
  · intro n s hn h
    simp [value, hn, caseEq, h]
  · intro s h1 h2
    cases hn : o.nanString with
    | none => simp [value, hn, h1]
    | some n => simp [value, hn, h1, caseEq, h2 n hn]

end Apop.Db.ToData
