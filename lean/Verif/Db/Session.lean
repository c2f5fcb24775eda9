import Verif.Db.ToDb
import Mathlib.Tactic.SplitIfs
import Mathlib.Tactic.Push
import Mathlib.Data.List.Induction

/-! # C177: the life of a database: open, query, import, crash, close

`apop_db_open`, `apop_query`, `apop_db_close` and the writers to tables, with SQLite as it is documented: a statement is done wholly or not at all; outside a transaction each is durable when it returns; in a transaction what was done is durable
at its commit, and lost if the program stops, or the connection is closed, before. Files are named by strings, and `D` is what a database holds. MySQL is not modelled, nor other processes. -/

namespace Apop.Db.Session
variable {D : Type} [Inhabited D]

/-! ## What SQLite does -/

/-- A statement of SQL. -/
inductive Stmt (D : Type) where
  | begin
  | commit
  | rollback
  | vacuum
  /-- One that reads; `ok`: is it valid? -/
  | read (ok : D → Bool)
  /-- One that writes, or is an error, in which case nothing is changed. -/
  | write (f : D → Option D)

/-- A connection: the file (`none`: in memory), what it sees, in a transaction what there was at its beginning, and whether the transaction has written. -/
structure Conn (D : Type) where
  file : Option CStr
  cur : D
  saved : Option D := none
  dirty : Bool := false

/-- What is on the disk, which files are locked by connections with transactions that were never closed, and the connection in use (the variable `db`). -/
structure Sess (D : Type) where
  files : CStr → D
  locked : CStr → Bool := fun _ => false
  conn : Option (Conn D) := none

/-- One file's contents replaced. -/
def setFile (files : CStr → D) (n : CStr) (d : D) : CStr → D := fun m => if m = n then d else files m

/-- What the connection sees goes to the disk. -/
def flush (s : Sess D) (c : Conn D) : Sess D :=
  match c.file with
  | none => { s with conn := some c }
  | some n => { s with files := setFile s.files n c.cur, conn := some c }

/-- Is the file locked by another connection? -/
def isLocked (s : Sess D) (c : Conn D) : Bool :=
  match c.file with
  | none => false
  | some n => s.locked n

/-- A write that gives `d`. -/
def wrote (s : Sess D) (c : Conn D) (d : D) : Sess D :=
  match c.saved with
  | some _ => { s with conn := some { c with cur := d, dirty := true } }
  | none => flush s { c with cur := d }

/-- One statement; `none` is an error. -/
def step (s : Sess D) (c : Conn D) : Stmt D → Option (Sess D)
  | .begin => if c.saved.isSome then none else some { s with conn := some { c with saved := some c.cur, dirty := false } }
  | .commit => if c.saved.isSome then some (flush s { c with saved := none, dirty := false }) else none
  | .rollback => c.saved.map fun d => { s with conn := some { c with cur := d, saved := none, dirty := false } }
  | .vacuum => if c.saved.isSome || isLocked s c then none else some s
  | .read ok => if ok c.cur then some s else none
  | .write f => if isLocked s c then none else (f c.cur).map (wrote s c)

/-- `sqlite3_exec`: up to the first error. -/
def exec (s : Sess D) : List (Stmt D) → Sess D × Bool
  | [] => (s, true)
  | t :: ts =>
    match s.conn.bind fun c => step s c t with
    | none => (s, false)
    | some s' => exec s' ts

/-- The program, or the machine, stops: what is on the disk remains. -/
def crash (s : Sess D) : Sess D := { files := s.files }

/-! ## The code -/

/-- The old connection, if any, is not closed when `db` is overwritten: if it has a transaction that wrote, it keeps the file locked. -/
def leak (s : Sess D) : CStr → Bool := fun n => s.locked n || s.conn.any fun c => c.dirty && c.file == some n

/-- `apop_db_open`, apop_db.m4.c:85-99, with SQLite, and `apop_sqlite_db_open`, apop_db_sqlite.c:149-152: whether or not there is a database open. `ok`: does SQLite open the file? If not, `db` is NULL. -/
def openDb (s : Sess D) (name : Option CStr) (ok : Bool) : Sess D :=
  if ok then { s with locked := leak s, conn := some { file := name, cur := match name with | none => default | some n => s.files n } }
  else { s with locked := leak s, conn := none }

/-- `if (!db) apop_db_open(NULL)`, apop_db.m4.c:227. -/
def ensure (s : Sess D) : Sess D := if s.conn.isSome then s else openDb s none true

/-- `apop_query`, apop_db.m4.c:215-233: the result is 0 if all went well, else 1. -/
def query (s : Sess D) (ts : List (Stmt D)) : Sess D × Nat := ((exec (ensure s) ts).1, if (exec (ensure s) ts).2 then 0 else 1)

/-- `apop_db_close`, apop_db.m4.c:178-203: the session and the result. If no database is open, vacuuming tests a pointer that was never set (line 190); without it nothing happens. A database closed in a transaction is rolled back. -/
def closeDb (s : Sess D) (vacuum : Bool) : Res (Sess D × Nat) :=
  match s.conn with
  | none => if vacuum then .ub else .ok (s, 0)
  | some c => if vacuum && (step s c .vacuum).isNone then .ok (s, 1) else .ok ({ s with conn := none }, 0)

/-- What a program does. -/
inductive Call (D : Type) where
  | opn (name : Option CStr) (ok : Bool)
  | cls (vacuum : Bool)
  | qry (ts : List (Stmt D))
  | stop

/-- One of these. -/
def call (s : Sess D) : Call D → Res (Sess D)
  | .opn name ok => .ok (openDb s name ok)
  | .cls v => match closeDb s v with | .ub => .ub | .ok r => .ok r.1
  | .qry ts => .ok (query s ts).1
  | .stop => .ok (crash s)

/-- A history. -/
def run (s : Sess D) : List (Call D) → Res (Sess D)
  | [] => .ok s
  | c :: cs => match call s c with | .ub => .ub | .ok s' => run s' cs

/-- Queries one after the other, without looking at the results, as in `apop_crosstab_to_db`. -/
def queries (s : Sess D) : List (Stmt D) → Sess D
  | [] => s
  | t :: ts => queries (query s [t]).1 ts

/-! ### The writers, as sequences of statements -/

open ToDb (Db Cell find distinct)
variable {V : Type}

/-- `create table`, an error where `ToDb.create` has no effect. -/
def createStmt (name : CStr) (cols : List CStr) : Stmt (Db V) := .write fun d => if (find d name).isSome || cols.isEmpty || !distinct cols then none else some (ToDb.create d name cols)

/-- `insert into`. -/
def insertStmt (name : CStr) (row : List (Cell V)) : Stmt (Db V) := .write fun d => if (find d name).isSome then some (ToDb.insert d name row) else none

/-- `apop_data_to_db`, apop_db.m4.c:595-637, and `apop_text_to_db`, apop_conversions.m4.c:1148-1190, to a new table: create, then one insert for each row. -/
def importStmts (name : CStr) (cols : List CStr) (rows : List (List (Cell V))) : List (Stmt (Db V)) := createStmt name cols :: rows.map (insertStmt name)

/-- `apop_crosstab_to_db`, apop_conversions.m4.c:192-225. -/
def crosstabStmts (name : CStr) (cols : List CStr) (rows : List (List (Cell V))) : List (Stmt (Db V)) := createStmt name cols :: .begin :: (rows.map (insertStmt name) ++ [.commit])

instance : Inhabited (Db V) := ⟨[]⟩

/-! ## Specification -/

/-- A database in a file is open, and what is seen. -/
def Open (s : Sess D) (n : CStr) (d : D) : Prop := ∃ c, s.conn = some c ∧ c.file = some n ∧ c.cur = d

/-- In a transaction. -/
def InTx (s : Sess D) : Prop := ∃ c, s.conn = some c ∧ c.saved.isSome = true

/-- Ready: the file is open, holds `d`, no transaction, not locked. -/
structure Ready (s : Sess D) (n : CStr) (d : D) : Prop where
  opn : Open s n d
  noTx : ¬ InTx s
  free : s.locked n = false
  disk : s.files n = d

/-! ## The invariant -/

/-- What is on the disk is what is seen, or in a transaction what was there at its beginning. -/
def Inv (s : Sess D) : Prop := ∀ c n, s.conn = some c → c.file = some n → s.files n = c.saved.getD c.cur

theorem inv_flush (s : Sess D) (c : Conn D) (h : c.saved = none) : Inv (flush s c) := by
  intro c' n hc hf
  unfold flush at hc ⊢
  cases hcf : c.file with
  | none =>
    rw [hcf] at hc
    simp only [Option.some.injEq] at hc
    rw [← hc, hcf] at hf; cases hf
  | some m =>
    rw [hcf] at hc
    simp only [Option.some.injEq] at hc
    subst hc
    rw [hcf] at hf
    simp only [Option.some.injEq] at hf
    subst hf
    simp [setFile, h]

theorem wrote_none (s : Sess D) (c : Conn D) (d : D) (h : c.saved = none) : wrote s c d = flush s { c with cur := d } := by
  unfold wrote; split
  · rename_i h'; rw [h] at h'; cases h'
  · rfl

theorem wrote_some (s : Sess D) (c : Conn D) (d d' : D) (h : c.saved = some d') : wrote s c d = { s with conn := some { c with cur := d, dirty := true } } := by
  unfold wrote; split
  · rfl
  · rename_i h'; rw [h] at h'; cases h'

theorem inv_step {s s' : Sess D} {c : Conn D} {t : Stmt D} (hi : Inv s) (hc : s.conn = some c) (h : step s c t = some s') : Inv s' := by
  cases t with
  | begin =>
    simp only [step] at h
    split_ifs at h with hs
    injection h with h
    subst h
    intro c' n hc' hf
    simp only [Option.some.injEq] at hc'
    subst hc'
    have := hi c n hc hf
    have hn : c.saved = none := by cases hx : c.saved with | none => rfl | some _ => simp [hx] at hs
    rw [hn] at this
    simpa using this
  | commit =>
    simp only [step] at h
    split_ifs at h
    injection h with h
    subst h
    exact inv_flush _ _ rfl
  | rollback =>
    simp only [step] at h
    cases hx : c.saved with
    | none => rw [hx] at h; cases h
    | some d =>
      rw [hx, Option.map_some] at h
      injection h with h
      subst h
      intro c' n hc' hf
      simp only [Option.some.injEq] at hc'
      subst hc'
      have := hi c n hc hf
      rw [hx] at this
      simpa using this
  | vacuum =>
    simp only [step] at h
    split_ifs at h
    injection h with h
    rw [← h]; exact hi
  | read ok =>
    simp only [step] at h
    split_ifs at h
    injection h with h
    rw [← h]; exact hi
  | write f =>
    simp only [step] at h
    split_ifs at h
    cases hf : f c.cur with
    | none => rw [hf] at h; cases h
    | some d =>
      rw [hf, Option.map_some] at h
      injection h with h
      subst h
      cases hx : c.saved with
      | none => rw [wrote_none s c d hx]; exact inv_flush _ _ hx
      | some d' =>
        rw [wrote_some s c d d' hx]
        intro c' n hc' hf
        simp only [Option.some.injEq] at hc'
        subst hc'
        have := hi c n hc hf
        rw [hx] at this
        simpa [hx] using this

theorem inv_exec (ts : List (Stmt D)) : ∀ (s : Sess D), Inv s → Inv (exec s ts).1 := by
  induction ts with
  | nil => exact fun s h => h
  | cons t ts ih =>
    intro s h
    unfold exec
    cases hc : s.conn with
    | none => exact h
    | some c =>
      simp only [Option.bind_some]
      cases hs : step s c t with
      | none => exact h
      | some s' => exact ih s' (inv_step h hc hs)

theorem inv_open (s : Sess D) (name : Option CStr) (ok : Bool) : Inv (openDb s name ok) := by
  intro c n hc hf
  unfold openDb at hc ⊢
  split_ifs at hc ⊢ with h
  · simp only [Option.some.injEq] at hc
    subst hc
    simp only at hf
    subst hf
    rfl

theorem inv_ensure (s : Sess D) (h : Inv s) : Inv (ensure s) := by
  unfold ensure
  split_ifs
  · exact h
  · exact inv_open _ _ _

theorem inv_call {s s' : Sess D} (c : Call D) (h : Inv s) (hc : call s c = .ok s') : Inv s' := by
  cases c with
  | opn name ok => injection hc with hc; rw [← hc]; exact inv_open _ _ _
  | qry ts => injection hc with hc; rw [← hc]; exact inv_exec _ _ (inv_ensure s h)
  | stop =>
    injection hc with hc
    rw [← hc]
    intro c n hx; simp [crash] at hx
  | cls v =>
    simp only [call, closeDb] at hc
    cases hx : s.conn with
    | none =>
      rw [hx] at hc
      cases v
      · injection hc with hc; rw [← hc]; exact h
      · cases hc
    | some c =>
      simp only [hx] at hc
      split_ifs at hc
      · injection hc with hc; rw [← hc]; exact h
      · injection hc with hc; rw [← hc]
        intro c n hy; simp at hy

theorem inv_run (cs : List (Call D)) : ∀ {s s' : Sess D}, Inv s → run s cs = .ok s' → Inv s' := by
  induction cs with
  | nil => intro s s' h hr; injection hr with hr; rw [← hr]; exact h
  | cons c cs ih =>
    intro s s' h hr
    unfold run at hr
    cases hc : call s c with
    | ub => rw [hc] at hr; cases hr
    | ok s1 => rw [hc] at hr; exact ih (inv_call c h hc) hr

/-! ## Close, crash, reopen -/

/-- **Reopening**: after any history from any disk, with a file open: if no transaction is open, then whether the database is closed or the program stops, the file opened again holds what was seen. If one is, it holds what was there when the transaction began. -/
theorem C177_reopen (disk : CStr → D) (h : List (Call D)) (s : Sess D) (hr : run { files := disk } h = .ok s) (c : Conn D) (n : CStr) (hc : s.conn = some c) (hf : c.file = some n) :
    Open (openDb (crash s) (some n) true) n (c.saved.getD c.cur) ∧ ∃ s', closeDb s false = .ok (s', 0) ∧ s'.conn = none ∧ Open (openDb s' (some n) true) n (c.saved.getD c.cur) := by
  have hi : Inv s := inv_run h (fun c n hx => by simp at hx) hr
  have := hi c n hc hf
  refine ⟨⟨_, rfl, rfl, ?_⟩, { s with conn := none }, ?_, rfl, ⟨_, rfl, rfl, ?_⟩⟩
  · simp [crash, this]
  · simp [closeDb, hc]
  · simp [this]

/-! ## Crashes -/

theorem flush_conn (s : Sess D) (c : Conn D) : (flush s c).conn = some c ∧ (flush s c).locked = s.locked ∧ ∀ m, some m ≠ c.file → (flush s c).files m = s.files m := by
  unfold flush
  cases h : c.file with
  | none => exact ⟨rfl, rfl, fun _ _ => rfl⟩
  | some n =>
    refine ⟨rfl, rfl, fun m hm => ?_⟩
    have : m ≠ n := fun e => hm (by rw [e])
    simp [setFile, this]

theorem step_facts {s s' : Sess D} {c : Conn D} {t : Stmt D} (hc : s.conn = some c) (h : step s c t = some s') :
    ∃ c', s'.conn = some c' ∧ c'.file = c.file ∧ s'.locked = s.locked ∧ (∀ m, some m ≠ c.file → s'.files m = s.files m) ∧ (c'.saved.isSome = true → s'.files = s.files) := by
  cases t with
  | begin =>
    simp only [step] at h
    split_ifs at h
    injection h with h
    rw [← h]
    exact ⟨_, rfl, rfl, rfl, fun _ _ => rfl, fun _ => rfl⟩
  | commit =>
    simp only [step] at h
    split_ifs at h
    injection h with h
    obtain ⟨h1, h2, h3⟩ := flush_conn s { c with saved := none, dirty := false }
    rw [← h]
    exact ⟨_, h1, rfl, h2, h3, fun hx => by simp at hx⟩
  | rollback =>
    simp only [step] at h
    cases hx : c.saved with
    | none => rw [hx] at h; cases h
    | some d =>
      rw [hx, Option.map_some] at h
      injection h with h
      rw [← h]
      exact ⟨_, rfl, rfl, rfl, fun _ _ => rfl, fun _ => rfl⟩
  | vacuum =>
    simp only [step] at h
    split_ifs at h
    injection h with h
    rw [← h]
    exact ⟨c, hc, rfl, rfl, fun _ _ => rfl, fun _ => rfl⟩
  | read ok =>
    simp only [step] at h
    split_ifs at h
    injection h with h
    rw [← h]
    exact ⟨c, hc, rfl, rfl, fun _ _ => rfl, fun _ => rfl⟩
  | write f =>
    simp only [step] at h
    split_ifs at h
    cases hf : f c.cur with
    | none => rw [hf] at h; cases h
    | some d =>
      rw [hf, Option.map_some] at h
      injection h with h
      rw [← h]
      cases hx : c.saved with
      | none =>
        rw [wrote_none s c d hx]
        obtain ⟨h1, h2, h3⟩ := flush_conn s { c with cur := d }
        exact ⟨_, h1, rfl, h2, h3, fun hy => by simp [hx] at hy⟩
      | some d' =>
        rw [wrote_some s c d d' hx]
        exact ⟨_, rfl, rfl, rfl, fun _ _ => rfl, fun _ => rfl⟩

theorem query_one (s : Sess D) (c : Conn D) (hc : s.conn = some c) (t : Stmt D) : query s [t] = ((step s c t).getD s, if (step s c t).isSome then 0 else 1) := by
  have he : ensure s = s := by simp [ensure, hc]
  unfold query
  rw [he]
  simp only [exec, hc, Option.bind_some]
  cases step s c t <;> simp

theorem query_facts (s : Sess D) (c : Conn D) (hc : s.conn = some c) (t : Stmt D) :
    ∃ c', (query s [t]).1.conn = some c' ∧ c'.file = c.file ∧ (query s [t]).1.locked = s.locked ∧ (∀ m, some m ≠ c.file → (query s [t]).1.files m = s.files m) ∧ (c'.saved.isSome = true → (query s [t]).1.files = s.files) := by
  rw [query_one s c hc]
  cases h : step s c t with
  | none => exact ⟨c, hc, rfl, rfl, fun _ _ => rfl, fun _ => rfl⟩
  | some s' => exact step_facts hc h

theorem queries_append (ts us : List (Stmt D)) : ∀ s : Sess D, queries s (ts ++ us) = queries (queries s ts) us := by
  induction ts with
  | nil => exact fun s => rfl
  | cons t ts ih => exact fun s => ih _

theorem inv_query (s : Sess D) (h : Inv s) (ts : List (Stmt D)) : Inv (query s ts).1 := inv_exec _ _ (inv_ensure s h)

theorem inv_queries (ts : List (Stmt D)) : ∀ s : Sess D, Inv s → Inv (queries s ts) := by
  induction ts with
  | nil => exact fun s h => h
  | cons t ts ih => exact fun s h => ih _ (inv_query s h _)

theorem queries_facts (ts : List (Stmt D)) : ∀ (s : Sess D) (c : Conn D), s.conn = some c →
    ∃ c', (queries s ts).conn = some c' ∧ c'.file = c.file ∧ (queries s ts).locked = s.locked ∧ ∀ m, some m ≠ c.file → (queries s ts).files m = s.files m := by
  induction ts with
  | nil => exact fun s c hc => ⟨c, hc, rfl, rfl, fun _ _ => rfl⟩
  | cons t ts ih =>
    intro s c hc
    obtain ⟨c1, h1, h2, h3, h4, _⟩ := query_facts s c hc t
    obtain ⟨c2, k1, k2, k3, k4⟩ := ih _ c1 h1
    exact ⟨c2, k1, by rw [k2, h2], by rw [queries, k3, h3], fun m hm => by rw [queries, k4 m (by rw [h2]; exact hm), h4 m hm]⟩

/-- **Crash at any point**: a file is open, no transaction is; then any queries are sent, and the program stops. The file holds what was seen after the last query at which no transaction was open: every query outside a transaction, and all of each transaction that was committed,
and nothing of the one, if any, that was not. No other file is touched. -/
theorem C177_crash (s : Sess D) (n : CStr) (d : D) (hs : Ready s n d) (ts : List (Stmt D)) :
    (∃ k ≤ ts.length, ¬ InTx (queries s (ts.take k)) ∧ (∀ j, k < j → j ≤ ts.length → InTx (queries s (ts.take j))) ∧ Open (queries s (ts.take k)) n ((crash (queries s ts)).files n)) ∧
    ∀ m, m ≠ n → (crash (queries s ts)).files m = s.files m := by
  obtain ⟨⟨c, hc, hf, hd⟩, hnt, hfree, hdisk⟩ := hs
  have hsv : c.saved = none := by
    cases hx : c.saved with
    | none => rfl
    | some x => exact absurd ⟨c, hc, by simp [hx]⟩ hnt
  have hi : Inv s := by
    intro c' n' hc' hf'
    rw [hc] at hc'
    injection hc' with hc'
    subst hc'
    rw [hf] at hf'
    injection hf' with hf'
    subst hf'
    simp [hsv, hdisk, hd]
  refine ⟨?_, fun m hm => ?_⟩
  · induction ts using List.reverseRecOn with
    | nil => exact ⟨0, Nat.le_refl _, hnt, fun j h1 h2 => by simp at h2; omega, c, hc, hf, by simp [queries, crash, hdisk, hd]⟩
    | append_singleton ts t ih =>
      by_cases htx : InTx (queries s (ts ++ [t]))
      · obtain ⟨k, hk, h1, h2, h3⟩ := ih
        have htake : ∀ j ≤ ts.length, (ts ++ [t]).take j = ts.take j := fun j hj => List.take_append_of_le_length hj
        refine ⟨k, by simp; omega, by rw [htake k hk]; exact h1, fun j hj hj' => ?_, ?_⟩
        · rcases Nat.lt_or_ge ts.length j with h | h
          · rw [List.take_of_length_le (by simp; omega)]; exact htx
          · rw [htake j h]; exact h2 j hj h
        · rw [htake k hk]
          obtain ⟨c1, q1, q2, q3, q4⟩ := queries_facts ts s c hc
          obtain ⟨c2, r1, r2, r3, r4, r5⟩ := query_facts (queries s ts) c1 q1 t
          have e : queries s (ts ++ [t]) = (query (queries s ts) [t]).1 := by rw [queries_append]; rfl
          rw [e] at htx ⊢
          obtain ⟨c3, x1, x2⟩ := htx
          rw [r1] at x1
          injection x1 with x1
          rw [← x1] at x2
          simp only [crash, r5 x2]
          exact h3
      · refine ⟨(ts ++ [t]).length, Nat.le_refl _, by rw [List.take_length]; exact htx, fun j h1 h2 => by omega, ?_⟩
        rw [List.take_length]
        obtain ⟨c1, q1, q2, q3, q4⟩ := queries_facts (ts ++ [t]) s c hc
        refine ⟨c1, q1, by rw [q2, hf], ?_⟩
        have := inv_queries (ts ++ [t]) s hi c1 n q1 (by rw [q2, hf])
        have hn : c1.saved = none := by
          cases hx : c1.saved with
          | none => rfl
          | some x => exact absurd ⟨c1, q1, by simp [hx]⟩ htx
        rw [hn] at this
        simpa [crash] using this.symm
  · obtain ⟨c1, q1, q2, q3, q4⟩ := queries_facts ts s c hc
    exact q4 m (by rw [hf]; intro e; injection e with e; exact hm e)

/-! ## Imports -/

/-- In a transaction that began with `d0` and sees `d`. -/
structure Busy (s : Sess D) (n : CStr) (d0 d : D) : Prop where
  conn : ∃ c, s.conn = some c ∧ c.file = some n ∧ c.cur = d ∧ c.saved = some d0
  free : s.locked n = false
  disk : s.files n = d0

theorem ready_conn {s : Sess D} {n : CStr} {d : D} (h : Ready s n d) : ∃ c, s.conn = some c ∧ c.file = some n ∧ c.cur = d ∧ c.saved = none := by
  obtain ⟨⟨c, h1, h2, h3⟩, h4, _⟩ := h
  refine ⟨c, h1, h2, h3, ?_⟩
  cases hx : c.saved with
  | none => rfl
  | some x => exact absurd ⟨c, h1, by simp [hx]⟩ h4

theorem ready_write {s : Sess D} {n : CStr} {d d' : D} (h : Ready s n d) (f : D → Option D) (hf : f d = some d') : Ready (query s [.write f]).1 n d' := by
  obtain ⟨c, h1, h2, h3, h4⟩ := ready_conn h
  have hfree := h.free
  rw [query_one s c h1]
  have hs : step s c (.write f) = some (flush s { c with cur := d' }) := by
    simp only [step, isLocked, h2, hfree, h3, hf, Option.map_some, wrote, h4]
    simp
  rw [hs]
  simp only [Option.getD_some, flush, h2]
  exact ⟨⟨_, rfl, rfl, rfl⟩, fun ⟨c', e, hx⟩ => by
    injection e with e
    rw [← e] at hx; simp [h4] at hx, hfree, by simp [setFile]⟩

theorem ready_begin {s : Sess D} {n : CStr} {d : D} (h : Ready s n d) : Busy (query s [.begin]).1 n d d := by
  obtain ⟨c, h1, h2, h3, h4⟩ := ready_conn h
  have hs : step s c .begin = some { s with conn := some { c with saved := some c.cur, dirty := false } } := by simp [step, h4]
  rw [query_one s c h1, hs]
  exact ⟨⟨_, rfl, h2, h3, by simp [h3]⟩, h.free, h.disk⟩

theorem busy_write {s : Sess D} {n : CStr} {d0 d d' : D} (h : Busy s n d0 d) (f : D → Option D) (hf : f d = some d') : Busy (query s [.write f]).1 n d0 d' := by
  obtain ⟨⟨c, h1, h2, h3, h4⟩, hfree, hdisk⟩ := h
  have hs : step s c (.write f) = some { s with conn := some { c with cur := d', dirty := true } } := by
    simp only [step, isLocked, h2, hfree, h3, hf, Option.map_some, wrote, h4]
    simp
  rw [query_one s c h1, hs]
  exact ⟨⟨_, rfl, h2, rfl, h4⟩, hfree, hdisk⟩

theorem busy_begin {s : Sess D} {n : CStr} {d0 d : D} (h : Busy s n d0 d) : query s [.begin] = (s, 1) := by
  obtain ⟨⟨c, h1, h2, h3, h4⟩, _, _⟩ := h
  rw [query_one s c h1]
  simp [step, h4]

theorem busy_commit {s : Sess D} {n : CStr} {d0 d : D} (h : Busy s n d0 d) : Ready (query s [.commit]).1 n d := by
  obtain ⟨⟨c, h1, h2, h3, h4⟩, hfree, hdisk⟩ := h
  have hs : step s c .commit = some (flush s { c with saved := none, dirty := false }) := by simp [step, h4]
  rw [query_one s c h1, hs]
  simp only [Option.getD_some, flush, h2]
  exact ⟨⟨_, rfl, rfl, h3⟩, fun ⟨c', e, hx⟩ => by
    injection e with e
    rw [← e] at hx; simp at hx, hfree, by simp [setFile, h3]⟩

theorem ready_commit {s : Sess D} {n : CStr} {d : D} (h : Ready s n d) : query s [.commit] = (s, 1) ∧ query s [.rollback] = (s, 1) := by
  obtain ⟨c, h1, h2, h3, h4⟩ := ready_conn h
  rw [query_one s c h1, query_one s c h1]
  simp [step, h4]

theorem insert_last (d : Db V) (name : CStr) (cols : List CStr) (rs : List (List (Cell V))) (hf : find d name = none) (row : List (Cell V)) :
    (find (d ++ [⟨name, false, cols, rs⟩]) name).isSome = true ∧ ToDb.insert (d ++ [⟨name, false, cols, rs⟩]) name row = d ++ [⟨name, false, cols, rs ++ [row]⟩] := by
  have hself : caseEq name name = true := by simp [caseEq]
  have hd : ∀ t ∈ d, caseEq t.name name = false := by
    intro t ht
    unfold find at hf
    rw [List.find?_eq_none] at hf
    simpa using hf t ht
  constructor
  · simp [find, List.find?_append, hself]
  · unfold ToDb.insert
    rw [List.map_append]
    congr 1
    · conv_rhs => rw [← List.map_id d]
      exact List.map_congr_left fun t ht => by simp [hd t ht]
    · simp [hself]

theorem createStmt_ok (d : Db V) (name : CStr) (cols : List CStr) (hf : find d name = none) (hne : cols ≠ []) (hd : distinct cols = true) :
    (if (find d name).isSome || cols.isEmpty || !distinct cols then none else some (ToDb.create d name cols)) = some (d ++ [⟨name, false, cols, []⟩]) := by
  have : cols.isEmpty = false := by simpa using hne
  simp [hf, this, hd, ToDb.create]

theorem ready_inserts (n name : CStr) (cols : List CStr) (d : Db V) (hf : find d name = none) (rows : List (List (Cell V))) : ∀ (rs : List (List (Cell V))) (s : Sess (Db V)), Ready s n (d ++ [⟨name, false, cols, rs⟩]) →
    Ready (queries s (rows.map (insertStmt name))) n (d ++ [⟨name, false, cols, rs ++ rows⟩]) := by
  induction rows with
  | nil => intro rs s h; simpa [queries] using h
  | cons r rows ih =>
    intro rs s h
    obtain ⟨i1, i2⟩ := insert_last d name cols rs hf r
    have := ih (rs ++ [r]) _ (ready_write h (fun d => if (find d name).isSome then some (ToDb.insert d name r) else none) (by rw [if_pos i1, i2]))
    rw [List.append_assoc] at this
    exact this

theorem busy_inserts (n name : CStr) (cols : List CStr) (d0 d : Db V) (hf : find d name = none) (rows : List (List (Cell V))) : ∀ (rs : List (List (Cell V))) (s : Sess (Db V)), Busy s n d0 (d ++ [⟨name, false, cols, rs⟩]) →
    Busy (queries s (rows.map (insertStmt name))) n d0 (d ++ [⟨name, false, cols, rs ++ rows⟩]) := by
  induction rows with
  | nil => intro rs s h; simpa [queries] using h
  | cons r rows ih =>
    intro rs s h
    obtain ⟨i1, i2⟩ := insert_last d name cols rs hf r
    have := ih (rs ++ [r]) _ (busy_write h (fun d => if (find d name).isSome then some (ToDb.insert d name r) else none) (by rw [if_pos i1, i2]))
    rw [List.append_assoc] at this
    exact this

/-- **Import stopped midway**: a new table is written, row by row, outside a transaction, and the program stops after any number of statements. Then on the disk there is no table, or the table with a first part of the rows, in order, each whole; and all else is as it was. -/
theorem C177_import (s : Sess (Db V)) (n : CStr) (d : Db V) (hs : Ready s n d) (name : CStr) (cols : List CStr) (rows : List (List (Cell V))) (hf : find d name = none) (hne : cols ≠ []) (hd : distinct cols = true) :
    (crash (queries s ((importStmts name cols rows).take 0))).files n = d ∧
    ∀ k, (crash (queries s ((importStmts name cols rows).take (k + 1)))).files n = d ++ [⟨name, false, cols, rows.take k⟩] := by
  refine ⟨hs.disk, fun k => ?_⟩
  rw [importStmts, List.take_succ_cons, ← List.map_take]
  have h1 := ready_write hs (fun d => if (find d name).isSome || cols.isEmpty || !distinct cols then none else some (ToDb.create d name cols)) (createStmt_ok d name cols hf hne hd)
  have h2 := ready_inserts n name cols d hf (rows.take k) [] _ h1
  exact h2.disk

/-- **Import in a transaction**, as the documentation advises: begin, import, commit. Stopped after any number of statements, the file is as it was; after all of them, the table is there with all rows. -/
theorem C177_import_wrapped (s : Sess (Db V)) (n : CStr) (d : Db V) (hs : Ready s n d) (name : CStr) (cols : List CStr) (rows : List (List (Cell V))) (hf : find d name = none) (hne : cols ≠ []) (hd : distinct cols = true) :
    (∀ k ≤ (importStmts name cols rows).length + 1, (crash (queries s ((Stmt.begin :: importStmts name cols rows ++ [Stmt.commit]).take k))).files n = d) ∧
    (crash (queries s (.begin :: importStmts name cols rows ++ [.commit]))).files n = d ++ [⟨name, false, cols, rows⟩] := by
  have hb := ready_begin hs
  have hc := busy_write hb (fun d => if (find d name).isSome || cols.isEmpty || !distinct cols then none else some (ToDb.create d name cols)) (createStmt_ok d name cols hf hne hd)
  constructor
  · intro k hk
    rw [List.cons_append]
    cases k with
    | zero => exact hs.disk
    | succ k =>
      rw [List.take_succ_cons, List.take_append_of_le_length (by omega)]
      cases k with
      | zero => exact hb.disk
      | succ k =>
        rw [importStmts, List.take_succ_cons, ← List.map_take]
        exact (busy_inserts n name cols d d hf (rows.take k) [] _ hc).disk
  · rw [List.cons_append, importStmts, List.cons_append]
    have := busy_inserts n name cols d d hf rows [] _ hc
    have e : queries s (Stmt.begin :: createStmt name cols :: (rows.map (insertStmt name) ++ [Stmt.commit])) = (query (queries (query (query s [.begin]).1 [createStmt name cols]).1 (rows.map (insertStmt name))) [.commit]).1 := by
      rw [queries, queries, queries_append]; rfl
    rw [e]
    exact (busy_commit this).disk

/-- **Crosstab**: on its own, stopped after any number of statements, there is no table, or an empty one, or the whole. -/
theorem C177_crosstab (s : Sess (Db V)) (n : CStr) (d : Db V) (hs : Ready s n d) (name : CStr) (cols : List CStr) (rows : List (List (Cell V))) (hf : find d name = none) (hne : cols ≠ []) (hd : distinct cols = true) :
    (∀ k ≤ rows.length, (crash (queries s ((crosstabStmts name cols rows).take (k + 1)))).files n = d ++ [⟨name, false, cols, []⟩]) ∧
    (crash (queries s (crosstabStmts name cols rows))).files n = d ++ [⟨name, false, cols, rows⟩] := by
  have hc := ready_write hs (fun d => if (find d name).isSome || cols.isEmpty || !distinct cols then none else some (ToDb.create d name cols)) (createStmt_ok d name cols hf hne hd)
  have hb := ready_begin hc
  constructor
  · intro k hk
    rw [crosstabStmts, List.take_succ_cons]
    cases k with
    | zero => exact hc.disk
    | succ k =>
      rw [List.take_succ_cons, List.take_append_of_le_length (by simp; omega), ← List.map_take]
      exact (busy_inserts n name cols (d ++ [⟨name, false, cols, []⟩]) d hf (rows.take k) [] _ hb).disk
  · have := busy_inserts n name cols (d ++ [⟨name, false, cols, []⟩]) d hf rows [] _ hb
    have e : queries s (crosstabStmts name cols rows) = (query (queries (query (query s [createStmt name cols]).1 [.begin]).1 (rows.map (insertStmt name))) [.commit]).1 := by
      rw [crosstabStmts, queries, queries, queries_append]; rfl
    rw [e]
    exact (busy_commit this).disk

/-- **Crosstab in a transaction fails**: in a transaction of the user's that began with `d0` and now sees `d`, the inner "begin" is an error no one looks at, and the inner "commit" ends the user's transaction: all of it is on the disk at once, and the user's own commit and rollback are errors without effect. So a
transaction with a crosstab in it is not done wholly or not at all. -/
theorem C177_crosstab_wrapped_refuted (s : Sess (Db V)) (n : CStr) (d0 d : Db V) (hs : Busy s n d0 d) (name : CStr) (cols : List CStr) (rows : List (List (Cell V))) (hf : find d name = none) (hne : cols ≠ []) (hd : distinct cols = true) :
    ¬ InTx (queries s (crosstabStmts name cols rows)) ∧ (crash (queries s (crosstabStmts name cols rows))).files n = d ++ [⟨name, false, cols, rows⟩] ∧
    (query (queries s (crosstabStmts name cols rows)) [.commit]).2 = 1 ∧ query (queries s (crosstabStmts name cols rows)) [.rollback] = (queries s (crosstabStmts name cols rows), 1) := by
  have hc : Busy (query s [createStmt name cols]).1 n d0 (d ++ [⟨name, false, cols, []⟩]) := busy_write hs _ (createStmt_ok d name cols hf hne hd)
  have hb := busy_begin hc
  have := busy_inserts n name cols d0 d hf rows [] _ hc
  have e : queries s (crosstabStmts name cols rows) = (query (queries (query (query s [createStmt name cols]).1 [.begin]).1 (rows.map (insertStmt name))) [.commit]).1 := by
    rw [crosstabStmts, queries, queries, queries_append]; rfl
  rw [hb] at e
  have hr := busy_commit this
  rw [← show queries s (crosstabStmts name cols rows) = _ from e] at hr
  exact ⟨hr.noTx, hr.disk, by rw [(ready_commit hr).1], (ready_commit hr).2⟩

/-! ## In memory, and other cases -/

/-- **In memory**: a query with no database open is to a new, empty one in memory; no file is touched, whatever the queries. Closed, or if the program stops, it is gone. -/
theorem C177_memory (s : Sess D) (h : s.conn = none) (ts : List (Stmt D)) :
    query s ts = query (openDb s none true) ts ∧ (∃ c, (openDb s none true).conn = some c ∧ c.file = none ∧ c.cur = default) ∧ (query s ts).1.files = s.files := by
  have he : ensure s = openDb s none true := by simp [ensure, h]
  have he' : ensure (openDb s none true) = openDb s none true := by simp [ensure, openDb]
  have key : ∀ (ts : List (Stmt D)) (s : Sess D) c, s.conn = some c → c.file = none → (exec s ts).1.files = s.files := by
    intro ts
    induction ts with
    | nil => intros; rfl
    | cons t ts ih =>
      intro s c hc hf
      unfold exec
      rw [hc]
      simp only [Option.bind_some]
      cases hs : step s c t with
      | none => rfl
      | some s' =>
        obtain ⟨c', k1, k2, k3, k4, k5⟩ := step_facts hc hs
        have hfile : s'.files = s.files := funext fun m => k4 m (by rw [hf]; simp)
        rw [ih s' c' k1 (by rw [k2, hf]), hfile]
  refine ⟨by simp [query, he, he'], ⟨_, rfl, rfl, rfl⟩, ?_⟩
  unfold query
  rw [he]
  simp only
  rw [key ts _ { file := none, cur := default } rfl rfl]
  rfl

/-- **Open failing**: the next query is silently to a database in memory: it can succeed, and the file will never hold it. -/
theorem C177_open_failed_refuted (s : Sess D) (n : CStr) (ts : List (Stmt D)) : (openDb s (some n) false).conn = none ∧
    (query (openDb s (some n) false) ts).1.files = s.files ∧ ∀ f, (f (default : D)).isSome = true → (query (openDb s (some n) false) [.write f]).2 = 0 := by
  refine ⟨rfl, (C177_memory _ rfl ts).2.2, fun f hf => ?_⟩
  have h0 : (openDb s (some n) false).conn = none := rfl
  rw [(C177_memory _ h0 _).1, query_one _ { file := none, cur := default } rfl]
  obtain ⟨d, hd⟩ := Option.isSome_iff_exists.1 hf
  simp [step, isLocked, hd]

/-- **Opening after querying**: tables made before the file was opened are not in it, and can't be reached. -/
theorem C177_open_late (s : Sess D) (n : CStr) : Open (openDb s (some n) true) n (s.files n) ∧ (openDb s (some n) true).files = s.files := ⟨⟨_, rfl, rfl, rfl⟩, rfl⟩

/-- **Opening again in a transaction fails**: the old connection is not closed; if its transaction has written, the file stays locked: all writes to it are errors, whatever is called, until the program ends. -/
theorem C177_reopen_locked_refuted (s : Sess D) (c : Conn D) (n : CStr) (hc : s.conn = some c) (hf : c.file = some n) (hd : c.dirty = true) (f : D → Option D) :
    query (openDb s (some n) true) [.write f] = (openDb s (some n) true, 1) ∧ ∀ name ok, (openDb (openDb s (some n) true) name ok).locked n = true := by
  have hl : leak s n = true := by simp [leak, hc, hd, hf]
  constructor
  · rw [query_one _ { file := some n, cur := s.files n } rfl]
    simp [step, isLocked, openDb, hl]
  · intro name ok
    cases ok <;> simp [openDb, leak, hc, hd, hf]

/-- **Closing**: without vacuum it always gives 0, and loses an open transaction without notice; with vacuum in a transaction it gives 1 and the database stays open; with vacuum and no database open it is undefined. -/
theorem C177_close (s : Sess D) :
    (∃ s', closeDb s false = .ok (s', 0) ∧ s'.conn = none ∧ s'.files = s.files) ∧ (InTx s → closeDb s true = .ok (s, 1)) ∧ (s.conn = none → closeDb s true = .ub) := by
  refine ⟨?_, ?_, fun h => by simp [closeDb, h]⟩
  · cases h : s.conn with
    | none => exact ⟨s, by simp [closeDb, h], h, rfl⟩
    | some c => exact ⟨{ s with conn := none }, by simp [closeDb, h], rfl, rfl⟩
  · rintro ⟨c, h1, h2⟩
    simp [closeDb, h1, step, h2]

/-- **Results of queries**: 0 if every statement was done; 1 if one was an error: the ones before it were done, it and the ones after it weren't. -/
theorem C177_query (s : Sess D) (ts : List (Stmt D)) :
    ((query s ts).2 = 0 ∧ (query s ts).1 = queries (ensure s) ts) ∨ ((query s ts).2 = 1 ∧ ∃ us t vs, ts = us ++ t :: vs ∧ (query s us).2 = 0 ∧ (query s ts).1 = (query s us).1 ∧ (query (query s us).1 [t]).2 = 1) := by
  have hen : ∃ c, (ensure s).conn = some c := by
    unfold ensure
    split_ifs with h
    · exact Option.isSome_iff_exists.1 h
    · exact ⟨_, rfl⟩
  have q : ∀ us, query s us = ((exec (ensure s) us).1, if (exec (ensure s) us).2 then 0 else 1) := fun _ => rfl
  have key : ∀ (ts : List (Stmt D)) (s : Sess D) c, s.conn = some c → ((exec s ts).2 = true ∧ (exec s ts).1 = queries s ts) ∨
      ((exec s ts).2 = false ∧ ∃ us t vs, ts = us ++ t :: vs ∧ (exec s us).2 = true ∧ (exec s ts).1 = (exec s us).1 ∧ ∃ c', (exec s us).1.conn = some c' ∧ step (exec s us).1 c' t = none) := by
    intro ts
    induction ts with
    | nil => exact fun s c hc => Or.inl ⟨rfl, rfl⟩
    | cons t ts ih =>
      intro s c hc
      have hq := query_one s c hc t
      cases hs : step s c t with
      | none =>
        refine Or.inr ⟨by simp [exec, hc, hs], [], t, ts, rfl, rfl, by simp [exec, hc, hs], c, hc, hs⟩
      | some s' =>
        obtain ⟨c', k1, _⟩ := step_facts hc hs
        have e : ∀ l, exec s (t :: l) = exec s' l := fun l => by simp [exec, hc, hs]
        rw [e]
        rcases ih s' c' k1 with ⟨a, b⟩ | ⟨a, us, u, vs, b1, b2, b3, b4⟩
        · refine Or.inl ⟨a, ?_⟩
          rw [b, queries, hq, hs]; rfl
        · refine Or.inr ⟨a, t :: us, u, vs, by rw [b1]; rfl, ?_⟩
          rw [e]
          exact ⟨b2, b3, b4⟩
  obtain ⟨c, hc⟩ := hen
  rcases key ts (ensure s) c hc with ⟨a, b⟩ | ⟨a, us, u, vs, b1, b2, b3, c', b4, b5⟩
  · left
    rw [q]; simp [a, b]
  · right
    refine ⟨by rw [q]; simp [a], us, u, vs, b1, by rw [q]; simp [b2], b3, ?_⟩
    have : (query s us).1 = (exec (ensure s) us).1 := rfl
    rw [this, query_one _ c' b4, b5]
    rfl

/-! ## Not vacuous -/

/-- A disk with empty databases, a file opened: ready. -/
theorem ready_example (n : CStr) : Ready (openDb ({ files := fun _ => [] } : Sess (Db Nat)) (some n) true) n [] :=
  ⟨⟨_, rfl, rfl, rfl⟩, fun ⟨c, h, hx⟩ => by simp [openDb] at h; subst h; simp at hx, rfl, rfl⟩

example (n : CStr) : (crash (queries (openDb ({ files := fun _ => [] } : Sess (Db Nat)) (some n) true) ((importStmts [1] [[2]] [[.num 5], [.num 6], [.num 7]]).take 3))).files n = [⟨[1], false, [[2]], [[.num 5], [.num 6]]⟩] :=
  (C177_import _ n [] (ready_example n) [1] [[2]] [[.num 5], [.num 6], [.num 7]] rfl (by simp) (by decide)).2 2

example (n : CStr) : (crash (queries (query (openDb ({ files := fun _ => [] } : Sess (Db Nat)) (some n) true) [.begin]).1 (crosstabStmts [1] [[2]] [[.num 5]]))).files n = [⟨[1], false, [[2]], [[.num 5]]⟩] :=
  (C177_crosstab_wrapped_refuted _ n [] [] (ready_begin (ready_example n)) [1] [[2]] [[.num 5]] rfl (by simp) (by decide)).2.1

/-- A history: open a file, write outside a transaction, begin, write, stop. -/
example (n : CStr) : ∃ s c, run ({ files := fun _ => 0 } : Sess Nat) [.opn (some n) true, .qry [.write fun d => some (d + 1)], .qry [.begin, .write fun d => some (d + 5)]] = .ok s ∧ s.conn = some c ∧ c.file = some n ∧ c.cur = 6 ∧ c.saved = some 1 :=
  ⟨_, _, rfl, rfl, rfl, rfl, rfl⟩

end Apop.Db.Session
