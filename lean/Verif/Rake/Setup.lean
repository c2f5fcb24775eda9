import Verif.Rake.Props
import Verif.Base.C
import Mathlib.Data.List.Dedup
import Mathlib.Data.List.GetD

/-! # C175: raking from the database's tables

`apop_rake` of apop_rake.m4.c around `c_loglin` (C91): the list of contrasts, the set of cells that could be nonzero, the initial table, and the result. The queries are modelled by what they mean in SQL: `select distinct`, `natural join`, `where`, `except`, `union` and `group by`, on tables with one row per observation and no NULL values. The order in which the database returns the rows is left open. The tables have the `k` variables as columns and a count (1 if no column of counts is named). -/

namespace Apop.Rake
open Classical
variable {α : Type} [LinearOrder α] [Inhabited α] {k : ℕ}

/-! ## The models -/

/-- Space, line feed and tab, the blanks in `pipe_parse`. -/
def blank (c : Char) : Bool := c == ' ' || c == '\n' || c == '\t'

/-- `generate_list_of_contrasts`, apop_rake.m4.c:328-337: the matches of `[ \n\t]*([^| \n\t]+)[ \n\t]*([|]|$)` one after the other, by the meaning of the expression: of each piece between pipes, the last word. `cur` is the word so far, backwards, `gap` says whether a blank came after it. -/
def parsePipe : List Char → Bool → List Char → List (List Char)
  | cur, _, [] => if cur = [] then [] else [cur.reverse]
  | cur, gap, c :: s =>
    if c = '|' then (if cur = [] then [] else [cur.reverse]) ++ parsePipe [] false s
    else if blank c then parsePipe cur true s
    else if gap then parsePipe [c] false s
    else parsePipe (c :: cur) false s

/-- A row of a table: the values of the variables. -/
abbrev Row (k : ℕ) (α : Type) := Fin k → α

/-- A row with its count. -/
structure Obs (k : ℕ) (α : Type) where
  x : Row k α
  ct : ℝ

/-- `get_var_index`, apop_rake.m4.c:363-369, and `find_in_allvars`, lines 379-384. -/
noncomputable def varIndex (vars : Fin k → List Char) (name : List Char) : Option (Fin k) := (List.finRange k).find? fun i => decide (vars i = name)

/-- A row of a relation with some of the columns only. -/
abbrev PRow (k : ℕ) (α : Type) := Fin k → Option α

/-- Some columns of a row. -/
noncomputable def proj (c : List (Fin k)) (r : Row k α) : PRow k α := fun i => if i ∈ c then some (r i) else none

/-- `select distinct c from t`. -/
noncomputable def selectDistinct (c : List (Fin k)) (t : List (Row k α)) : List (PRow k α) := (t.map (proj c)).dedup

/-- Do the rows agree in the columns that both have? -/
def Agree (a b : PRow k α) : Prop := ∀ i, a i = none ∨ b i = none ∨ a i = b i

/-- The columns of both. -/
def merge (a b : PRow k α) : PRow k α := fun i => (a i).or (b i)

/-- `A natural join B`. -/
noncomputable def join (A B : List (PRow k α)) : List (PRow k α) := A.flatMap fun a => (B.filter fun b => decide (Agree a b)).map (merge a)

/-- The variables in no contrast. -/
noncomputable def unused (cs : List (List (Fin k))) : List (Fin k) := (List.finRange k).filter fun i => decide (∀ c ∈ cs, i ∉ c)

/-- The relations joined in `setup_nonzero_contrast`, apop_rake.m4.c:404-420: one for each contrast, one for each variable in no contrast. -/
noncomputable def parts (cs : List (List (Fin k))) (t : List (Row k α)) : List (List (PRow k α)) := (cs ++ (unused cs).map fun i => [i]).map fun c => selectDistinct c t

/-- The values of a row that has all columns. -/
def total (p : PRow k α) : Row k α := fun i => (p i).getD default

/-- The table apop_zerocontrasts without init table: `setup_nonzero_contrast`, apop_rake.m4.c:395-429 up to line 421. -/
noncomputable def possible (cs : List (List (Fin k))) (t : List (Row k α)) (sz : Row k α → Bool) : List (Row k α) :=
  (((parts cs t).foldl join [fun _ => none]).map total).filter fun x => !sz x

/-- With an init table, `except` the rows of the margin table, apop_rake.m4.c:422-425. -/
noncomputable def possibleExcept (cs : List (List (Fin k))) (t : List (Row k α)) (sz : Row k α → Bool) : List (Row k α) :=
  (possible cs t sz).dedup.filter fun x => decide (x ∉ t)

/-- `select fields, sum(count) from t group by fields`, apop_rake.m4.c:563-579. -/
noncomputable def groupBy (t : List (Obs k α)) : List (Obs k α) :=
  (t.map Obs.x).dedup.map fun x => ⟨x, ((t.filter fun o => decide (o.x = x)).map Obs.ct).sum⟩

/-- `nudge_zeros`, apop_rake.m4.c:373-377. -/
noncomputable def nudgeZero (nudge : ℝ) (o : Obs k α) : Obs k α := if o.ct = 0 then ⟨o.x, nudge⟩ else o

/-- The query for the init table with the cells to be nudged, and the nudge, apop_rake.m4.c:596-607. -/
noncomputable def fitNudged (cs : List (List (Fin k))) (obs ini : List (Obs k α)) (sz : Row k α → Bool) (nudge : ℝ) : List (Obs k α) :=
  ((groupBy (ini.filter fun o => !sz o.x) ++ (possibleExcept cs (obs.map Obs.x) sz).map fun x => (⟨x, nudge⟩ : Obs k α)).dedup).map (nudgeZero nudge)

/-- The initial table, apop_rake.m4.c:594-607. -/
noncomputable def initial (cs : List (List (Fin k))) (obs : List (Obs k α)) (init : Option (List (Obs k α))) (sz : Row k α → Bool) (nudge : ℝ) : List (Obs k α) :=
  match init with
  | none => (possible cs (obs.map Obs.x) sz).map fun x => ⟨x, if nudge = 0 then 1 else nudge⟩
  | some ini => if nudge = 0 then groupBy (ini.filter fun o => !sz o.x) else fitNudged cs obs ini sz nudge

/-- A row past the end, never read. -/
def noRow : Obs k α := ⟨default, 0⟩

/-- The cell in column `i`. -/
def cellOf (r : Row k α) (i : ℕ) : α := if h : i < k then r ⟨i, h⟩ else default

/-- Rows in memory. -/
def toTable (l : List (Obs k α)) : Table α := ⟨l.length, fun m i => cellOf (l.getD m noRow).x i, fun m => (l.getD m noRow).ct⟩

/-- The contrast's column in the grid, apop_rake.m4.c:609-612, as `generate_margin_index` reads it: the columns in order, each once. -/
def gridCol (c : List (Fin k)) : List ℕ := (List.range k).filter fun i => decide (i ∈ c.map Fin.val)

/-- What is returned: an error mark, or the rows with their weights and whether these are marked with 'c'. -/
inductive Out (k : ℕ) (α : Type) where
  | err (c : Char)
  | table (rows : List (Row k α)) (w : ℕ → ℝ) (marked : Bool)

/-- The raking itself, apop_rake.m4.c:618. A contrast without columns is a NULL read in `value_loop`. -/
noncomputable def finish (cs : List (List (Fin k))) (d fit : List (Obs k α)) (tol : ℝ) (maxit : ℕ) : Res (Out k α) :=
  if ∃ c ∈ cs, c = [] then .ub
  else .ok (.table (fit.map Obs.x) (cLoglin (toTable d) (toTable fit) (cs.map gridCol) tol maxit).1 (cLoglin (toTable d) (toTable fit) (cs.map gridCol) tol maxit).2)

/-- `apop_rake`, apop_rake.m4.c:534-628. `ord` is the order in which the database returns rows. Names that are not variables: an error if the set of possible cells is asked for (lines 409-411, 555), else the contrast's column is not set (`apop_data_set` with row -1, C43). A margin table without rows is an error (line 587), as is an init table without rows (line 600); if no cell is possible, NULL is read (line 604). -/
noncomputable def rake (ord : List (Obs k α) → List (Obs k α)) (vars : Fin k → List Char) (contrasts : List (List Char)) (obs : List (Obs k α)) (init : Option (List (Obs k α)))
    (sz : Row k α → Bool) (nudge tol : ℝ) (maxit : ℕ) : Res (Out k α) :=
  let names := contrasts.map (parsePipe [] false)
  let cs := names.map fun ns => ns.filterMap (varIndex vars)
  if (init = none ∨ nudge ≠ 0) ∧ ∃ ns ∈ names, ∃ nm ∈ ns, varIndex vars nm = none then .ok (.err 'q')
  else if obs = [] then .ok (.err 'q')
  else if initial cs obs init sz nudge = [] then (if init = none then .ub else .ok (.err 'q'))
  else finish cs (ord (groupBy obs)) (ord (initial cs obs init sz nudge)) tol maxit

/-! ## Specification -/

/-- Could the cell be nonzero, given the observations? For each contrast there is an observation like it in the contrast's variables, and for each variable in no contrast one like it in that variable; and it is no structural zero. -/
def Possible (cs : List (List (Fin k))) (t : List (Row k α)) (sz : Row k α → Bool) (x : Row k α) : Prop :=
  (∀ c ∈ cs, ∃ r ∈ t, ∀ i ∈ c, r i = x i) ∧ (∀ i, (∀ c ∈ cs, i ∉ c) → ∃ r ∈ t, r i = x i) ∧ sz x = false

/-- The rows have the same values in the variables of the contrast. -/
def Same (c : List (Fin k)) (x v : Row k α) : Prop := ∀ i ∈ c, x i = v i

/-- The observations' total with the values of `v` in the variables of a contrast. -/
noncomputable def obsSum (obs : List (Obs k α)) (c : List (Fin k)) (v : Row k α) : ℝ := ((obs.filter fun o => decide (Same c o.x v)).map Obs.ct).sum

/-- That of the rows of a result. -/
noncomputable def rowSum (rows : List (Row k α)) (w : ℕ → ℝ) (c : List (Fin k)) (v : Row k α) : ℝ :=
  ∑ m ∈ Finset.range rows.length, if Same c (rows.getD m default) v then w m else 0

/-- The variables of a contrast as given. -/
noncomputable def columns (vars : Fin k → List Char) (s : List Char) : List (Fin k) := (parsePipe [] false s).filterMap (varIndex vars)

/-- The counts of the rows of a table with the values of `x`. -/
noncomputable def countAt (t : List (Obs k α)) (x : Row k α) : ℝ := ((t.filter fun o => decide (o.x = x)).map Obs.ct).sum

/-- A table raked, from initial weights `w0`: each possible cell has one row; no weight is negative; the weights are the initial ones times a constant and one factor for each contrast, which depends on the contrast's variables only; and in each contrast, for all values, the total is that of the observations, up to `eps`. -/
structure Raked (cs : List (List (Fin k))) (obs : List (Obs k α)) (sz : Row k α → Bool) (w0 : Row k α → ℝ) (eps : ℝ) (rows : List (Row k α)) (w : ℕ → ℝ) : Prop where
  nodup : rows.Nodup
  mem : ∀ x, x ∈ rows ↔ Possible cs (obs.map Obs.x) sz x
  nonneg : ∀ m, 0 ≤ w m
  factors : ∃ (b : ℝ) (f : ℕ → Row k α → ℝ), (∀ j x y, Same (cs.getD j []) x y → f j x = f j y) ∧ ∀ m < rows.length, w m = b * w0 (rows.getD m default) * ∏ j ∈ Finset.range cs.length, f j (rows.getD m default)
  margins : ∀ c ∈ cs, ∀ v, |rowSum rows w c v - obsSum obs c v| ≤ eps

/-! ## The list of contrasts -/

theorem parse_word (w : List Char) (hw : ∀ c ∈ w, c ≠ '|' ∧ blank c = false) (cur s : List Char) : parsePipe cur false (w ++ s) = parsePipe (w.reverse ++ cur) false s := by
  induction w generalizing cur with
  | nil => simp
  | cons c w ih =>
    obtain ⟨h1, h2⟩ := hw c (by simp)
    rw [List.cons_append, parsePipe, if_neg h1, if_neg (by simp [h2])]
    simp only [Bool.false_eq_true, if_false]
    rw [ih (fun c hc => hw c (by simp [hc]))]
    simp

theorem parse_blanks (b : List Char) (hb : ∀ c ∈ b, blank c = true) (cur s : List Char) (g : Bool) (hbn : b ≠ [] ∨ g = true) : parsePipe cur g (b ++ s) = parsePipe cur true s := by
  induction b generalizing g with
  | nil =>
    rcases hbn with h | h
    · exact absurd rfl h
    · rw [h]; rfl
  | cons c b ih =>
    have h := hb c (by simp)
    have hp : c ≠ '|' := by rintro rfl; simp [blank] at h
    rw [List.cons_append, parsePipe, if_neg hp, if_pos h]
    exact ih (fun c hc => hb c (by simp [hc])) true (Or.inr rfl)

/-- A name with blanks around it. -/
structure Padded where
  before : List Char
  name : List Char
  after : List Char

/-- Blanks only around, neither blanks nor pipes in the name. -/
def Padded.Ok (p : Padded) : Prop := (∀ c ∈ p.before, blank c = true) ∧ (∀ c ∈ p.after, blank c = true) ∧ p.name ≠ [] ∧ ∀ c ∈ p.name, c ≠ '|' ∧ blank c = false

/-- The text. -/
def Padded.text (p : Padded) : List Char := p.before ++ p.name ++ p.after

/-- The texts separated by pipes. -/
def piped : List Padded → List Char
  | [] => []
  | [p] => p.text
  | p :: q :: ps => p.text ++ '|' :: piped (q :: ps)

theorem parse_padded (p : Padded) (h : p.Ok) (s : List Char) (hs : s = [] ∨ ∃ t, s = '|' :: t) : parsePipe [] false (p.text ++ s) = p.name :: parsePipe [] false (s.drop 1) := by
  obtain ⟨h1, h2, h3, h4⟩ := h
  have e1 : ∀ g, parsePipe [] g (p.name ++ (p.after ++ s)) = parsePipe p.name.reverse false (p.after ++ s) := by
    intro g
    cases g with
    | false =>
      rw [parse_word p.name h4]
      simp
    | true =>
      cases hn : p.name with
      | nil => exact absurd hn h3
      | cons c w =>
        rw [hn] at h4
        obtain ⟨a, b⟩ := h4 c (by simp)
        rw [List.cons_append, parsePipe, if_neg a, if_neg (by simp [b]), if_pos rfl, parse_word w (fun c hc => h4 c (by simp [hc]))]
        simp
  have e0 : parsePipe [] false (p.before ++ (p.name ++ (p.after ++ s))) = parsePipe p.name.reverse false (p.after ++ s) := by
    by_cases hb : p.before = []
    · rw [hb, List.nil_append, e1]
    · rw [parse_blanks p.before h1 [] _ false (Or.inl hb), e1]
  have hr : p.name.reverse ≠ [] := by simpa using h3
  have e2 : ∀ g, parsePipe p.name.reverse g s = p.name :: parsePipe [] false (s.drop 1) := by
    intro g
    rcases hs with rfl | ⟨t, rfl⟩
    · simp [parsePipe, h3]
    · simp [parsePipe, h3]
  have : p.text ++ s = p.before ++ (p.name ++ (p.after ++ s)) := by simp [Padded.text]
  rw [this, e0]
  by_cases ha : p.after = []
  · rw [ha, List.nil_append, e2]
  · rw [parse_blanks p.after h2 _ _ false (Or.inl ha), e2]

/-- **Contrasts**: names separated by pipes, with any blanks around them, are read as the list of these names. -/
theorem C175_contrast (ps : List Padded) (h : ∀ p ∈ ps, p.Ok) : parsePipe [] false (piped ps) = ps.map Padded.name := by
  induction ps with
  | nil => simp [piped, parsePipe]
  | cons p ps ih =>
    have hp := h p (by simp)
    have ih' := ih fun q hq => h q (by simp [hq])
    cases ps with
    | nil =>
      have := parse_padded p hp [] (Or.inl rfl)
      rw [List.append_nil] at this
      rw [piped, this]
      simp [parsePipe]
    | cons q ps =>
      rw [piped, parse_padded p hp _ (Or.inr ⟨_, rfl⟩), List.drop_one, List.tail_cons, ih']
      rfl

theorem parse_skip (u : List Char) (hu : ∀ c ∈ u, c ≠ '|') : ∀ (cur : List Char) (g : Bool), ∃ cur' g', ∀ r, parsePipe cur g (u ++ r) = parsePipe cur' g' r := by
  induction u with
  | nil => exact fun cur g => ⟨cur, g, fun r => rfl⟩
  | cons c u ih =>
    intro cur g
    have hc := hu c (by simp)
    have ih' := ih fun c hc => hu c (by simp [hc])
    by_cases hb : blank c = true
    · obtain ⟨a, b, h⟩ := ih' cur true
      exact ⟨a, b, fun r => by rw [List.cons_append, parsePipe, if_neg hc, if_pos hb]; exact h r⟩
    · cases g with
      | true =>
        obtain ⟨a, b, h⟩ := ih' [c] false
        exact ⟨a, b, fun r => by rw [List.cons_append, parsePipe, if_neg hc, if_neg hb, if_pos rfl]; exact h r⟩
      | false =>
        obtain ⟨a, b, h⟩ := ih' (c :: cur) false
        exact ⟨a, b, fun r => by rw [List.cons_append, parsePipe, if_neg hc, if_neg hb, if_neg (by simp)]; exact h r⟩

/-- **Several words**: of a text between pipes only the last word counts; the others are dropped without notice. -/
theorem C175_contrast_words (u : List Char) (hu : ∀ c ∈ u, c ≠ '|') (b : Char) (hb : blank b = true) (p : Padded) (hp : p.Ok) : parsePipe [] false (u ++ b :: p.text) = [p.name] := by
  obtain ⟨cur, g, h⟩ := parse_skip u hu [] false
  obtain ⟨h1, h2, h3, h4⟩ := hp
  have hbp : b ≠ '|' := by rintro rfl; simp [blank] at hb
  rw [h, parsePipe, if_neg hbp, if_pos hb, Padded.text, List.append_assoc]
  rw [parse_blanks p.before h1 cur (p.name ++ p.after) true (Or.inr rfl)]
  have e : parsePipe cur true (p.name ++ p.after) = parsePipe p.name.reverse false p.after := by
    cases hn : p.name with
    | nil => exact absurd hn h3
    | cons c w =>
      rw [hn] at h4
      obtain ⟨x, y⟩ := h4 c (by simp)
      rw [List.cons_append, parsePipe, if_neg x, if_neg (by simp [y]), if_pos rfl, parse_word w (fun c hc => h4 c (by simp [hc]))]
      simp
  rw [e]
  by_cases ha : p.after = []
  · rw [ha, parsePipe]; simp [h3]
  · have := parse_blanks p.after h2 p.name.reverse [] false (Or.inl ha)
    rw [List.append_nil] at this
    rw [this, parsePipe]; simp [h3]

/-- "age sex" is read as "sex". -/
example : parsePipe [] false ['a', 'g', 'e', ' ', 's', 'e', 'x'] = [['s', 'e', 'x']] := C175_contrast_words ['a', 'g', 'e'] (by decide) ' ' (by decide) ⟨[], ['s', 'e', 'x'], []⟩ ⟨by decide, by decide, by decide, by decide⟩

/-! ## The cells -/

theorem proj_some (c : List (Fin k)) (r : Row k α) (i : Fin k) (h : i ∈ c) : proj c r i = some (r i) := by simp [proj, h]

theorem proj_none (c : List (Fin k)) (r : Row k α) (i : Fin k) (h : i ∉ c) : proj c r i = none := by simp [proj, h]

theorem mem_selectDistinct (c : List (Fin k)) (t : List (Row k α)) (b : PRow k α) : b ∈ selectDistinct c t ↔ ∃ r ∈ t, proj c r = b := by
  simp [selectDistinct]

theorem mem_join (A B : List (PRow k α)) (p : PRow k α) : p ∈ join A B ↔ ∃ a ∈ A, ∃ b ∈ B, Agree a b ∧ merge a b = p := by
  simp [join, and_assoc]

/-- What is known of the join of the relations of some contrasts. -/
structure Joined (cs : List (List (Fin k))) (t : List (Row k α)) (J : List (PRow k α)) : Prop where
  nodup : J.Nodup
  mem : ∀ p, p ∈ J ↔ (∀ i, p i ≠ none ↔ ∃ c ∈ cs, i ∈ c) ∧ ∀ c ∈ cs, ∃ r ∈ t, ∀ i ∈ c, p i = some (r i)

theorem joined_step {cs : List (List (Fin k))} {t : List (Row k α)} {J : List (PRow k α)} (h : Joined cs t J) (c : List (Fin k)) : Joined (cs ++ [c]) t (join J (selectDistinct c t)) := by
  have dom : ∀ a ∈ J, ∀ i, a i ≠ none ↔ ∃ c ∈ cs, i ∈ c := fun a ha => ((h.mem a).1 ha).1
  constructor
  · unfold join
    rw [List.nodup_flatMap]
    constructor
    · intro a ha
      apply List.Nodup.map_on
      · intro b hb b' hb' he
        simp only [List.mem_filter, decide_eq_true_eq] at hb hb'
        obtain ⟨hb1, hb2⟩ := hb
        obtain ⟨hb1', hb2'⟩ := hb'
        obtain ⟨r, _, rfl⟩ := (mem_selectDistinct c t b).1 hb1
        obtain ⟨r', _, rfl⟩ := (mem_selectDistinct c t b').1 hb1'
        funext i
        have e := congrFun he i
        by_cases hi : i ∈ c
        · have q := hb2 i
          have q' := hb2' i
          rw [proj_some c r i hi] at q ⊢
          rw [proj_some c r' i hi] at q' ⊢
          simp only [merge, proj_some c r i hi, proj_some c r' i hi] at e
          rcases q with q | q | q
          · rw [q] at e; simpa using e
          · cases q
          · rcases q' with q' | q' | q'
            · rw [q'] at q; cases q
            · cases q'
            · rw [← q, q']
        · rw [proj_none c r i hi, proj_none c r' i hi]
      · exact (List.nodup_dedup _).filter _
    · refine h.nodup.imp_of_mem ?_
      intro a a' ha ha' hne
      simp only [Function.onFun]
      rw [List.disjoint_left]
      intro p hp hp'
      obtain ⟨b, hb, rfl⟩ := List.mem_map.1 hp
      obtain ⟨b', hb', he⟩ := List.mem_map.1 hp'
      apply hne
      funext i
      have e := congrFun he i
      simp only [merge] at e
      by_cases hi : ∃ c ∈ cs, i ∈ c
      · obtain ⟨v, hv⟩ := Option.ne_none_iff_exists'.1 ((dom a ha i).2 hi)
        obtain ⟨v', hv'⟩ := Option.ne_none_iff_exists'.1 ((dom a' ha' i).2 hi)
        rw [hv, hv'] at e ⊢
        simpa using e.symm
      · have n1 : a i = none := by by_contra hc; exact hi ((dom a ha i).1 hc)
        have n2 : a' i = none := by by_contra hc; exact hi ((dom a' ha' i).1 hc)
        rw [n1, n2]
  · intro p
    rw [mem_join]
    constructor
    · rintro ⟨a, ha, b, hb, hag, rfl⟩
      obtain ⟨r, hr, rfl⟩ := (mem_selectDistinct c t b).1 hb
      obtain ⟨h1, h2⟩ := (h.mem a).1 ha
      constructor
      · intro i
        simp only [List.mem_append, List.mem_singleton]
        constructor
        · intro hi
          by_cases hc : i ∈ c
          · exact ⟨c, Or.inr rfl, hc⟩
          · simp only [merge, proj_none c r i hc, Option.or_none] at hi
            obtain ⟨c', hc', hi'⟩ := (h1 i).1 hi
            exact ⟨c', Or.inl hc', hi'⟩
        · rintro ⟨c', hc' | rfl, hi⟩
          · obtain ⟨v, hv⟩ := Option.ne_none_iff_exists'.1 ((h1 i).2 ⟨c', hc', hi⟩)
            simp [merge, hv]
          · simp [merge, proj_some c' r i hi]
      · intro c' hc'
        simp only [List.mem_append, List.mem_singleton] at hc'
        rcases hc' with hc' | rfl
        · obtain ⟨r', hr', he⟩ := h2 c' hc'
          exact ⟨r', hr', fun i hi => by simp [merge, he i hi]⟩
        · refine ⟨r, hr, fun i hi => ?_⟩
          have q := hag i
          rw [proj_some c' r i hi] at q
          rcases q with q | q | q
          · simp [merge, q, proj_some c' r i hi]
          · cases q
          · simp [merge, q]
    · rintro ⟨h1, h2⟩
      obtain ⟨r, hr, he⟩ := h2 c (by simp)
      refine ⟨fun i => if ∃ c ∈ cs, i ∈ c then p i else none, (h.mem _).2 ⟨?_, ?_⟩, proj c r, (mem_selectDistinct c t _).2 ⟨r, hr, rfl⟩, ?_, ?_⟩
      · intro i
        by_cases hi : ∃ c ∈ cs, i ∈ c
        · simp only [if_pos hi]
          obtain ⟨c', hc', hi'⟩ := hi
          refine ⟨fun _ => ⟨c', hc', hi'⟩, fun _ => (h1 i).2 ⟨c', by simp [hc'], hi'⟩⟩
        · simp only [if_neg hi]
          simp only [ne_eq, not_true_eq_false, false_iff]
          exact hi
      · intro c' hc'
        obtain ⟨r', hr', he'⟩ := h2 c' (by simp [hc'])
        refine ⟨r', hr', fun i hi => ?_⟩
        rw [if_pos ⟨c', hc', hi⟩]
        exact he' i hi
      · intro i
        by_cases hi : ∃ c ∈ cs, i ∈ c
        · simp only [if_pos hi]
          by_cases hc : i ∈ c
          · right; right
            rw [proj_some c r i hc, he i hc]
          · right; left
            exact proj_none c r i hc
        · simp only [if_neg hi]
          left; trivial
      · funext i
        simp only [merge]
        by_cases hc : i ∈ c
        · rw [proj_some c r i hc, he i hc]
          split_ifs <;> simp
        · rw [proj_none c r i hc, Option.or_none]
          split_ifs with hi
          · rfl
          · by_contra hne
            obtain ⟨c', hc', hi'⟩ := (h1 i).1 (fun h0 => hne h0.symm)
            simp only [List.mem_append, List.mem_singleton] at hc'
            rcases hc' with hc' | rfl
            · exact hi ⟨c', hc', hi'⟩
            · exact hc hi'

theorem joined_fold (t : List (Row k α)) (l : List (List (Fin k))) : ∀ (cs : List (List (Fin k))) (J : List (PRow k α)), Joined cs t J →
    Joined (cs ++ l) t ((l.map fun c => selectDistinct c t).foldl join J) := by
  induction l with
  | nil => intro cs J h; simpa using h
  | cons c l ih =>
    intro cs J h
    have := ih (cs ++ [c]) _ (joined_step h c)
    simpa using this

theorem joined_nil (t : List (Row k α)) : Joined [] t [fun _ => none] := by
  refine ⟨List.nodup_singleton _, fun p => ?_⟩
  constructor
  · intro h
    rw [List.mem_singleton] at h
    subst h
    simp
  · rintro ⟨h, _⟩
    rw [List.mem_singleton]
    funext i
    by_contra hc
    obtain ⟨c, hc, _⟩ := (h i).1 hc
    simp at hc

theorem possible_spec (cs : List (List (Fin k))) (t : List (Row k α)) (sz : Row k α → Bool) : (possible cs t sz).Nodup ∧ ∀ x, x ∈ possible cs t sz ↔ Possible cs t sz x := by
  have hJ := joined_fold t (cs ++ (unused cs).map fun i => [i]) [] _ (joined_nil t)
  rw [List.nil_append] at hJ
  change Joined _ t ((parts cs t).foldl join [fun _ => none]) at hJ
  have hu : ∀ i, i ∈ unused cs ↔ ∀ c ∈ cs, i ∉ c := by intro i; simp [unused]
  have hall : ∀ i, ∃ c ∈ cs ++ (unused cs).map (fun i => [i]), i ∈ c := by
    intro i
    by_cases h : ∃ c ∈ cs, i ∈ c
    · obtain ⟨c, hc, hi⟩ := h
      exact ⟨c, by simp [hc], hi⟩
    · push Not at h
      exact ⟨[i], by simp only [List.mem_append, List.mem_map]; exact Or.inr ⟨i, (hu i).2 h, rfl⟩, by simp⟩
  have hfull : ∀ p ∈ (parts cs t).foldl join [fun _ => none], ∀ i, p i = some (total p i) := by
    intro p hp i
    obtain ⟨v, hv⟩ := Option.ne_none_iff_exists'.1 ((((hJ.mem p).1 hp).1 i).2 (hall i))
    simp [total, hv]
  constructor
  · apply List.Nodup.filter
    apply List.Nodup.map_on _ hJ.nodup
    intro p hp q hq he
    funext i
    rw [hfull p hp i, hfull q hq i, he]
  · intro x
    simp only [possible, List.mem_filter, List.mem_map, Bool.not_eq_eq_eq_not, Bool.not_true]
    constructor
    · rintro ⟨⟨p, hp, rfl⟩, hz⟩
      have h2 := ((hJ.mem p).1 hp).2
      refine ⟨fun c hc => ?_, fun i hi => ?_, hz⟩
      · obtain ⟨r, hr, he⟩ := h2 c (by simp [hc])
        refine ⟨r, hr, fun i hi => ?_⟩
        have := he i hi
        rw [hfull p hp i] at this
        exact (Option.some.inj this).symm
      · obtain ⟨r, hr, he⟩ := h2 [i] (by simp only [List.mem_append, List.mem_map]; exact Or.inr ⟨i, (hu i).2 hi, rfl⟩)
        refine ⟨r, hr, ?_⟩
        have := he i (by simp)
        rw [hfull p hp i] at this
        exact (Option.some.inj this).symm
    · rintro ⟨h1, h2, hz⟩
      refine ⟨⟨fun i => some (x i), (hJ.mem _).2 ⟨fun i => ⟨fun _ => hall i, fun _ => by simp⟩, ?_⟩, by funext i; simp [total]⟩, hz⟩
      intro c hc
      simp only [List.mem_append, List.mem_map] at hc
      rcases hc with hc | ⟨i, hi, rfl⟩
      · obtain ⟨r, hr, he⟩ := h1 c hc
        exact ⟨r, hr, fun i hi => by rw [he i hi]⟩
      · obtain ⟨r, hr, he⟩ := h2 i ((hu i).1 hi)
        refine ⟨r, hr, fun j hj => ?_⟩
        rw [List.mem_singleton] at hj
        rw [hj, he]

/-! ## Tables in memory -/

theorem getD_mem (l : List (Obs k α)) (m : ℕ) (h : m < l.length) : l.getD m noRow ∈ l := by
  rw [List.getD_eq_getElem _ _ h]
  exact List.getElem_mem h

theorem eq_map_range (l : List (Obs k α)) : l = (List.range l.length).map fun m => l.getD m noRow := by
  apply List.ext_getElem
  · simp
  · intro m h1 h2
    simp [List.getElem?_eq_getElem h1]

theorem range_sum (l : List (Obs k α)) (P : Obs k α → Prop) (f : Obs k α → ℝ) :
    (((List.range l.length).filter fun m => decide (P (l.getD m noRow))).map fun m => f (l.getD m noRow)).sum = ((l.filter fun o => decide (P o)).map f).sum := by
  conv_rhs => rw [eq_map_range l]
  rw [List.filter_map, List.map_map]
  rfl

theorem mem_gridCol (c : List (Fin k)) (i : ℕ) : i ∈ gridCol c ↔ ∃ j ∈ c, j.val = i := by
  simp only [gridCol, List.mem_filter, List.mem_range, decide_eq_true_eq, List.mem_map]
  constructor
  · exact fun h => h.2
  · rintro ⟨j, hj, rfl⟩
    exact ⟨j.isLt, j, hj, rfl⟩

theorem cellOf_fin (r : Row k α) (i : Fin k) : cellOf r i.val = r i := by simp [cellOf]

/-- The values of `v` in the columns of a contrast. -/
def keyOf (c : List (Fin k)) (v : Row k α) : List α := (gridCol c).map (cellOf v)

theorem key_iff (l : List (Obs k α)) (c : List (Fin k)) (m : ℕ) (v : Row k α) : key (toTable l) (gridCol c) m = keyOf c v ↔ Same c (l.getD m noRow).x v := by
  unfold key keyOf toTable
  simp only
  rw [List.map_inj_left]
  constructor
  · intro h i hi
    have := h i.val ((mem_gridCol c _).2 ⟨i, hi, rfl⟩)
    rwa [cellOf_fin, cellOf_fin] at this
  · intro h i hi
    obtain ⟨j, hj, rfl⟩ := (mem_gridCol c i).1 hi
    rw [cellOf_fin, cellOf_fin]
    exact h j hj

theorem rowsWith_toTable (l : List (Obs k α)) (c : List (Fin k)) (v : Row k α) :
    rowsWith (toTable l) (gridCol c) (keyOf c v) = (List.range l.length).filter fun m => decide (Same c (l.getD m noRow).x v) := by
  unfold rowsWith
  apply List.filter_congr
  intro m _
  exact decide_eq_decide.2 (key_iff l c m v)

theorem marginTotal_toTable (l : List (Obs k α)) (c : List (Fin k)) (v : Row k α) : marginTotal (toTable l) (gridCol c) (keyOf c v) = obsSum l c v := by
  unfold marginTotal obsSum
  rw [rowsWith_toTable]
  exact range_sum l (fun o => Same c o.x v) Obs.ct

theorem fitTotal_toTable (l : List (Obs k α)) (w : ℕ → ℝ) (c : List (Fin k)) (v : Row k α) : fitTotal (toTable l) w (gridCol c) (keyOf c v) = rowSum (l.map Obs.x) w c v := by
  unfold fitTotal rowSum
  rw [rowsWith_toTable, List.length_map]
  have : ∀ (n : ℕ) (P : ℕ → Prop), (((List.range n).filter fun m => decide (P m)).map w).sum = ∑ m ∈ Finset.range n, if P m then w m else 0 := by
    intro n P
    induction n with
    | zero => simp
    | succ n ih =>
      rw [List.range_succ, List.filter_append, List.map_append, List.sum_append, ih, Finset.sum_range_succ]
      congr 1
      by_cases h : P n <;> simp [h]
  rw [this]
  apply Finset.sum_congr rfl
  intro m hm
  have hm' := Finset.mem_range.1 hm
  have e : (l.map Obs.x).getD m default = (l.getD m noRow).x := by
    rw [List.getD_eq_getElem _ _ (by simpa using hm'), List.getD_eq_getElem _ _ hm', List.getElem_map]
  rw [e]

theorem sum_groups (L : List (Row k α)) (hL : L.Nodup) (P : Row k α → Prop) : ∀ (obs : List (Obs k α)), (∀ o ∈ obs, o.ct ≠ 0 → o.x ∈ L) →
    ((L.filter fun x => decide (P x)).map fun x => ((obs.filter fun o => decide (o.x = x)).map Obs.ct).sum).sum = ((obs.filter fun o => decide (P o.x)).map Obs.ct).sum
  | [], _ => by simp
  | o :: obs, h => by
    have ih := sum_groups L hL P obs fun q hq => h q (by simp [hq])
    have e : ∀ x, (((o :: obs).filter fun o => decide (o.x = x)).map Obs.ct).sum = (if o.x = x then o.ct else 0) + ((obs.filter fun o => decide (o.x = x)).map Obs.ct).sum := by
      intro x
      by_cases hx : o.x = x <;> simp [hx]
    simp only [e]
    rw [List.sum_map_add, ih]
    have e2 : (((o :: obs).filter fun o => decide (P o.x)).map Obs.ct).sum = (if P o.x then o.ct else 0) + ((obs.filter fun o => decide (P o.x)).map Obs.ct).sum := by
      by_cases hx : P o.x <;> simp [hx]
    rw [e2]
    congr 1
    have hnd : (L.filter fun x => decide (P x)).Nodup := hL.filter _
    have e3 : ∀ (M : List (Row k α)), M.Nodup → (M.map fun x => if o.x = x then o.ct else 0).sum = if o.x ∈ M then o.ct else 0 := by
      intro M hM
      induction M with
      | nil => simp
      | cons y M ihM =>
        obtain ⟨h1, h2⟩ := List.nodup_cons.1 hM
        rw [List.map_cons, List.sum_cons, ihM h2]
        by_cases hy : o.x = y
        · subst hy; simp [h1]
        · simp [hy]
    rw [e3 _ hnd]
    by_cases h0 : o.ct = 0
    · simp [h0]
    · have hin := h o (by simp) h0
      by_cases hp : P o.x <;> simp [hp, hin]

theorem groupBy_rows (t : List (Obs k α)) : (groupBy t).map Obs.x = (t.map Obs.x).dedup := by
  unfold groupBy
  rw [List.map_map]
  have : (Obs.x ∘ fun x => (⟨x, ((t.filter fun o => decide (o.x = x)).map Obs.ct).sum⟩ : Obs k α)) = id := rfl
  rw [this, List.map_id]

theorem obsSum_groupBy (t : List (Obs k α)) (c : List (Fin k)) (v : Row k α) : obsSum (groupBy t) c v = obsSum t c v := by
  have h := sum_groups (t.map Obs.x).dedup (List.nodup_dedup _) (fun x => Same c x v) t (fun o ho _ => by simp only [List.mem_dedup, List.mem_map]; exact ⟨o, ho, rfl⟩)
  unfold obsSum
  rw [← h]
  unfold groupBy
  rw [List.filter_map, List.map_map]
  rfl

theorem obsSum_perm {a b : List (Obs k α)} (h : a.Perm b) (c : List (Fin k)) (v : Row k α) : obsSum a c v = obsSum b c v := by
  unfold obsSum
  exact ((h.filter _).map _).sum_eq

theorem mem_keys_map (d : Table α) (f : ℕ → α) : ∀ c : List ℕ, c.map f ∈ keys d c ↔ ∀ i ∈ c, f i ∈ distinct d i
  | [] => by simp [keys]
  | i :: c => by
    simp only [keys, List.map_cons, List.mem_flatMap, List.mem_map, List.cons.injEq, List.mem_cons, forall_eq_or_imp]
    rw [← mem_keys_map d f c]
    constructor
    · rintro ⟨v, hv, ks, hks, rfl, rfl⟩
      exact ⟨hv, hks⟩
    · rintro ⟨h1, h2⟩
      exact ⟨_, h1, _, h2, rfl, rfl⟩

theorem length_keys (d : Table α) : ∀ (c : List ℕ) (ks : List α), ks ∈ keys d c → ks.length = c.length
  | [], ks, h => by simp [keys] at h; simp [h]
  | i :: c, ks, h => by
    simp only [keys, List.mem_flatMap, List.mem_map] at h
    obtain ⟨v, _, ks', hk, rfl⟩ := h
    simp [length_keys d c ks' hk]

theorem keys_keyOf (d : Table α) (c : List (Fin k)) (ks : List α) (h : ks ∈ keys d (gridCol c)) : ∃ v : Row k α, keyOf c v = ks := by
  have hl := length_keys d _ ks h
  have hnd : (gridCol c).Nodup := List.nodup_range.filter _
  refine ⟨fun j => ks.getD ((gridCol c).idxOf j.val) default, ?_⟩
  unfold keyOf
  apply List.ext_getElem
  · simp [hl]
  · intro m h1 h2
    rw [List.getElem_map]
    have hm : m < (gridCol c).length := by simpa using h1
    have hk : (gridCol c)[m] < k := by
      have := List.getElem_mem hm
      obtain ⟨j, _, hj⟩ := (mem_gridCol c _).1 this
      rw [← hj]; exact j.isLt
    unfold cellOf
    rw [dif_pos hk]
    simp only
    rw [hnd.idxOf_getElem m hm, List.getD_eq_getElem _ _ h2]

/-- The number of combinations of values in all contrasts. -/
noncomputable def combosCt (d : List (Obs k α)) (cs : List (List (Fin k))) : ℕ := ((cs.map gridCol).map fun x => (keys (toTable d) x).length).sum

theorem toTable_wt_nonneg (l : List (Obs k α)) (h : ∀ o ∈ l, 0 ≤ o.ct) (m : ℕ) : 0 ≤ (toTable l).wt m := by
  change 0 ≤ (l.getD m noRow).ct
  by_cases hm : m < l.length
  · exact h _ (getD_mem l m hm)
  · rw [List.getD_eq_default _ _ (not_lt.1 hm)]
    exact le_refl _

theorem obsSum_nil (l : List (Obs k α)) (v : Row k α) : obsSum l [] v = (l.map Obs.ct).sum := by
  unfold obsSum
  rw [List.filter_eq_self.2]
  intro o _
  simp [Same]

theorem range_wt (l : List (Obs k α)) : ((List.range (toTable l).n).map (toTable l).wt).sum = (l.map Obs.ct).sum := by
  conv_rhs => rw [eq_map_range l]
  rw [List.map_map]
  rfl

/-- Counts of the observations like the row numbered `m`. -/
noncomputable def obsAt (obs fit : List (Obs k α)) (m : ℕ) : ℝ := if m < fit.length then ((obs.filter fun o => decide (o.x = (fit.getD m noRow).x)).map Obs.ct).sum else 0

theorem obsAt_nonneg (obs fit : List (Obs k α)) (h : ∀ o ∈ obs, 0 ≤ o.ct) (m : ℕ) : 0 ≤ obsAt obs fit m := by
  unfold obsAt
  split_ifs
  · apply List.sum_nonneg
    intro y hy
    obtain ⟨o, ho, rfl⟩ := List.mem_map.1 hy
    exact h o (List.mem_of_mem_filter ho)
  · exact le_refl _

theorem fitTotal_obsAt (obs fit : List (Obs k α)) (hn : (fit.map Obs.x).Nodup) (hs : ∀ o ∈ obs, o.ct ≠ 0 → o.x ∈ fit.map Obs.x) (c : List (Fin k)) (v : Row k α) :
    fitTotal (toTable fit) (obsAt obs fit) (gridCol c) (keyOf c v) = obsSum obs c v := by
  unfold fitTotal obsSum
  rw [rowsWith_toTable, ← sum_groups (fit.map Obs.x) hn (fun x => Same c x v) obs hs]
  have h := range_sum fit (fun o => Same c o.x v) fun o => ((obs.filter fun q => decide (q.x = o.x)).map Obs.ct).sum
  rw [List.filter_map, List.map_map]
  have e : (List.map (obsAt obs fit) (List.filter (fun m => decide (Same c (fit.getD m noRow).x v)) (List.range fit.length))) =
      (List.map (fun m => ((obs.filter fun q => decide (q.x = (fit.getD m noRow).x)).map Obs.ct).sum) (List.filter (fun m => decide (Same c (fit.getD m noRow).x v)) (List.range fit.length))) := by
    apply List.map_congr_left
    intro m hm
    have := List.mem_range.1 (List.mem_of_mem_filter hm)
    simp [obsAt, this]
  rw [e, h]
  rfl

theorem converge_core (cs : List (List (Fin k))) (hcs : ∀ c ∈ cs, c ≠ []) (obs d fit : List (Obs k α)) (hct : ∀ o ∈ obs, 0 ≤ o.ct) (hd : d.Perm (groupBy obs))
    (hfw : ∀ o ∈ fit, 0 ≤ o.ct) (hn : (fit.map Obs.x).Nodup) (hs' : ∀ o ∈ obs, o.ct ≠ 0 → ∃ q ∈ fit, q.x = o.x ∧ 0 < q.ct) (tol : ℝ) (ht : 0 < tol) :
    ∃ N, ∀ maxit ≥ N, ∀ c ∈ cs, ∀ v : Row k α, keyOf c v ∈ keys (toTable d) (gridCol c) →
      |rowSum (fit.map Obs.x) (cLoglin (toTable d) (toTable fit) (cs.map gridCol) tol maxit).1 c v - obsSum obs c v| ≤ combosCt d cs * tol := by
  have hdct : ∀ o ∈ d, 0 ≤ o.ct := by
    intro o ho
    have := hd.mem_iff.1 ho
    unfold groupBy at this
    obtain ⟨x, _, rfl⟩ := List.mem_map.1 this
    apply List.sum_nonneg
    intro y hy
    obtain ⟨q, hq, rfl⟩ := List.mem_map.1 hy
    exact hct q (List.mem_of_mem_filter hq)
  have hsum : ∀ c v, obsSum d c v = obsSum obs c v := fun c v => by rw [obsSum_perm hd, obsSum_groupBy]
  have hs : ∀ o ∈ obs, o.ct ≠ 0 → o.x ∈ fit.map Obs.x := by
    intro o ho h0
    obtain ⟨q, hq, hx, _⟩ := hs' o ho h0
    exact List.mem_map.2 ⟨q, hq, hx⟩
  have hdw := toTable_wt_nonneg d hdct
  have hfw' := toTable_wt_nonneg fit hfw
  have hgc : ∀ x ∈ cs.map gridCol, x ≠ [] := by
    intro x hx
    obtain ⟨c, hc, rfl⟩ := List.mem_map.1 hx
    obtain ⟨i, hi⟩ := List.exists_mem_of_ne_nil c (hcs c hc)
    exact List.ne_nil_of_mem ((mem_gridCol c i.val).2 ⟨i, hi, rfl⟩)
  have hp := obsAt_nonneg obs fit hct
  have hmatch : ∀ c ∈ cs.map gridCol, ∀ ks ∈ keys (toTable d) c, fitTotal (toTable fit) (obsAt obs fit) c ks = marginTotal (toTable d) c ks := by
    intro x hx ks hks
    obtain ⟨c, hc, rfl⟩ := List.mem_map.1 hx
    obtain ⟨v, rfl⟩ := keys_keyOf _ c ks hks
    rw [fitTotal_obsAt obs fit hn hs, marginTotal_toTable, hsum]
  have hsup : ∀ m < (toTable fit).n, start (toTable d) (toTable fit) m = 0 → obsAt obs fit m = 0 := by
    intro m hm h0
    have hm' : m < fit.length := hm
    by_cases hw : (toTable fit).wt m = 0
    · unfold obsAt
      rw [if_pos hm']
      apply List.sum_eq_zero
      intro y hy
      obtain ⟨o, ho, rfl⟩ := List.mem_map.1 hy
      by_contra hne
      have hox : o.x = (fit.getD m noRow).x := by simpa using (List.mem_filter.1 ho).2
      obtain ⟨q, hq, hx, hpos⟩ := hs' o (List.mem_of_mem_filter ho) hne
      have : q = fit.getD m noRow := List.inj_on_of_nodup_map hn hq (getD_mem fit m hm') (hx.trans hox)
      have hw' : (fit.getD m noRow).ct = 0 := hw
      rw [this, hw'] at hpos
      exact lt_irrefl _ hpos
    unfold start at h0
    rw [range_wt, range_wt] at h0
    have hY : (fit.map Obs.ct).sum ≠ 0 := by
      have hle := List.single_le_sum (l := fit.map Obs.ct) (by
        intro y hy
        obtain ⟨q, hq, rfl⟩ := List.mem_map.1 hy
        exact hfw q hq) (fit.getD m noRow).ct (List.mem_map.2 ⟨_, getD_mem fit m hm', rfl⟩)
      have hp0 : 0 < (fit.getD m noRow).ct := lt_of_le_of_ne (hfw _ (getD_mem fit m hm')) (Ne.symm hw)
      linarith
    have hX : (d.map Obs.ct).sum = 0 := by
      rcases mul_eq_zero.1 h0 with h | h
      · exact absurd h hw
      · rcases div_eq_zero_iff.1 h with h | h
        · exact h
        · exact absurd h hY
    rw [← obsSum_nil d default, hsum, obsSum_nil] at hX
    have hz : ∀ o ∈ obs, o.ct = 0 := by
      intro o ho
      have hle := List.single_le_sum (l := obs.map Obs.ct) (by
        intro y hy
        obtain ⟨q, hq, rfl⟩ := List.mem_map.1 hy
        exact hct q hq) o.ct (List.mem_map.2 ⟨o, ho, rfl⟩)
      rw [hX] at hle
      exact le_antisymm hle (hct o ho)
    unfold obsAt
    rw [if_pos hm']
    apply List.sum_eq_zero
    intro y hy
    obtain ⟨q, hq, rfl⟩ := List.mem_map.1 hy
    exact hz q (List.mem_of_mem_filter hq)
  set S := ∑ m ∈ Finset.range (toTable fit).n, obsAt obs fit m with hS
  have hS0 : 0 ≤ S := Finset.sum_nonneg fun m _ => hp m
  have hcoef : 0 < tol ^ 2 / (2 * (2 * S + tol)) := by positivity
  obtain ⟨N, hN⟩ := exists_nat_gt (kl (toTable fit).n (obsAt obs fit) (start (toTable d) (toTable fit)) / (tol ^ 2 / (2 * (2 * S + tol))))
  refine ⟨N, fun maxit hmax c hc v hv => ?_⟩
  obtain ⟨pre, post, hsplit⟩ := List.append_of_mem (List.mem_map.2 ⟨c, hc, rfl⟩ : gridCol c ∈ cs.map gridCol)
  have hm : kl (toTable fit).n (obsAt obs fit) (start (toTable d) (toTable fit)) < maxit * (tol ^ 2 / (2 * (2 * S + tol))) := by
    rw [div_lt_iff₀ hcoef] at hN
    refine lt_of_lt_of_le hN ?_
    have : (N : ℝ) ≤ maxit := by exact_mod_cast hmax
    exact mul_le_mul_of_nonneg_right this hcoef.le
  have h := C91_converges (toTable d) (toTable fit) hdw hfw' (cs.map gridCol) hgc tol ht (obsAt obs fit) hp hsup hmatch maxit hm pre (gridCol c) post hsplit (keyOf c v) hv
  rw [fitTotal_toTable, marginTotal_toTable, hsum] at h
  refine h.trans ?_
  apply mul_le_mul_of_nonneg_right _ ht.le
  have hle : (post.map fun x => (keys (toTable d) x).length).sum ≤ combosCt d cs := by
    unfold combosCt
    rw [hsplit]
    simp only [List.map_append, List.map_cons, List.sum_append, List.sum_cons]
    omega
  exact_mod_cast hle

/-! ## The properties -/

theorem varIndex_some (vars : Fin k → List Char) (hv : Function.Injective vars) (nm : List Char) (i : Fin k) : varIndex vars nm = some i ↔ vars i = nm := by
  unfold varIndex
  constructor
  · intro h
    simpa using List.find?_some h
  · intro h
    cases hf : (List.finRange k).find? fun i => decide (vars i = nm) with
    | none =>
      have := List.find?_eq_none.1 hf i (by simp)
      simp [h] at this
    | some j =>
      have := List.find?_some hf
      simp only [decide_eq_true_eq] at this
      rw [hv (this.trans h.symm)]

/-- **Columns**: a variable is in a contrast if its name is in the contrast's list. -/
theorem C175_columns (vars : Fin k → List Char) (hv : Function.Injective vars) (s : List Char) (i : Fin k) : i ∈ columns vars s ↔ vars i ∈ parsePipe [] false s := by
  unfold columns
  rw [List.mem_filterMap]
  constructor
  · rintro ⟨nm, h1, h2⟩
    rw [(varIndex_some vars hv nm i).1 h2]
    exact h1
  · exact fun h => ⟨_, h, (varIndex_some vars hv _ i).2 rfl⟩

/-- Every contrast has names, all of them variables. -/
def Known (vars : Fin k → List Char) (contrasts : List (List Char)) : Prop := ∀ s ∈ contrasts, parsePipe [] false s ≠ [] ∧ ∀ nm ∈ parsePipe [] false s, ∃ i, vars i = nm

theorem rake_finish (ord : List (Obs k α) → List (Obs k α)) (vars : Fin k → List Char) (hv : Function.Injective vars) (contrasts : List (List Char)) (hk : Known vars contrasts) (obs : List (Obs k α)) (ho : obs ≠ [])
    (init : Option (List (Obs k α))) (sz : Row k α → Bool) (nudge tol : ℝ) (maxit : ℕ) (hi : initial (contrasts.map (columns vars)) obs init sz nudge ≠ []) :
    rake ord vars contrasts obs init sz nudge tol maxit = finish (contrasts.map (columns vars)) (ord (groupBy obs)) (ord (initial (contrasts.map (columns vars)) obs init sz nudge)) tol maxit ∧
      ∀ c ∈ contrasts.map (columns vars), c ≠ [] := by
  have hidx : ∀ s ∈ contrasts, ∀ nm ∈ parsePipe [] false s, varIndex vars nm ≠ none := by
    intro s hs nm hnm
    obtain ⟨i, hi⟩ := (hk s hs).2 nm hnm
    rw [(varIndex_some vars hv nm i).2 hi]
    simp
  constructor
  · have e : (contrasts.map (parsePipe [] false)).map (fun ns => ns.filterMap (varIndex vars)) = contrasts.map (columns vars) := by
      rw [List.map_map]; rfl
    unfold rake
    simp only [e]
    rw [if_neg, if_neg ho, if_neg hi]
    rintro ⟨_, ns, hns, nm, hnm, h0⟩
    obtain ⟨s, hs, rfl⟩ := List.mem_map.1 hns
    exact hidx s hs nm hnm h0
  · intro c hc
    obtain ⟨s, hs, rfl⟩ := List.mem_map.1 hc
    obtain ⟨nm, hnm⟩ := List.exists_mem_of_ne_nil _ (hk s hs).1
    obtain ⟨i, hi⟩ := (hk s hs).2 nm hnm
    exact List.ne_nil_of_mem ((C175_columns vars hv s i).2 (by rw [hi]; exact hnm))

theorem mem_groupBy_x (t : List (Obs k α)) (x : Row k α) : x ∈ (groupBy t).map Obs.x ↔ ∃ o ∈ t, o.x = x := by
  rw [groupBy_rows]; simp

theorem mem_distinct_iff (d obs : List (Obs k α)) (hd : d.Perm (groupBy obs)) (i : Fin k) (a : α) : a ∈ distinct (toTable d) i.val ↔ ∃ o ∈ obs, o.x i = a := by
  rw [mem_distinct]
  constructor
  · rintro ⟨m, hm, rfl⟩
    have h1 := hd.mem_iff.1 (getD_mem d m hm)
    obtain ⟨o, ho, hx⟩ := (mem_groupBy_x obs _).1 (List.mem_map.2 ⟨_, h1, rfl⟩)
    refine ⟨o, ho, ?_⟩
    change _ = cellOf (d.getD m noRow).x i.val
    rw [cellOf_fin, hx]
  · rintro ⟨o, ho, rfl⟩
    obtain ⟨q, hq, hx⟩ := List.mem_map.1 ((mem_groupBy_x obs o.x).2 ⟨o, ho, rfl⟩)
    obtain ⟨m, hm, he⟩ := List.getElem_of_mem (hd.mem_iff.2 hq)
    refine ⟨m, hm, ?_⟩
    change cellOf (d.getD m noRow).x i.val = _
    rw [cellOf_fin, List.getD_eq_getElem _ _ hm, he, hx]

theorem factors_core (cs : List (List (Fin k))) (hgc : ∀ x ∈ cs.map gridCol, x ≠ []) (d F : List (Obs k α)) (hdw : ∀ m, 0 ≤ (toTable d).wt m) (tol : ℝ) (maxit : ℕ) :
    ∃ (b : ℝ) (f : ℕ → Row k α → ℝ), (∀ j x y, Same (cs.getD j []) x y → f j x = f j y) ∧ ∀ m < F.length,
      (cLoglin (toTable d) (toTable F) (cs.map gridCol) tol maxit).1 m = b * (F.getD m noRow).ct * ∏ j ∈ Finset.range cs.length, f j (F.getD m noRow).x := by
  obtain ⟨g, hg⟩ := C91_loglinear (toTable d) (toTable F) hdw (cs.map gridCol) hgc tol maxit
  refine ⟨((List.range (toTable d).n).map (toTable d).wt).sum / ((List.range (toTable F).n).map (toTable F).wt).sum, fun j x => g j (keyOf (cs.getD j []) x), ?_, ?_⟩
  · intro j x y hxy
    change g j (keyOf (cs.getD j []) x) = g j (keyOf (cs.getD j []) y)
    have : keyOf (cs.getD j []) x = keyOf (cs.getD j []) y := ?_
    · rw [this]
    unfold keyOf
    apply List.map_congr_left
    intro i hi
    obtain ⟨q, hq, rfl⟩ := (mem_gridCol _ i).1 hi
    rw [cellOf_fin, cellOf_fin]
    exact hxy q hq
  · intro m hm'
    rw [hg m hm', List.length_map]
    unfold start
    have hw : (toTable F).wt m = (F.getD m noRow).ct := rfl
    rw [hw, mul_comm (F.getD m noRow).ct]
    congr 1
    apply Finset.prod_congr rfl
    intro j hj
    have hj' := Finset.mem_range.1 hj
    congr 1
    rw [List.getD_eq_getElem _ _ (by simpa using hj'), List.getElem_map, List.getD_eq_getElem _ _ hj']
    rw [key_iff]
    intro _ _; rfl

/-- Raking any initial table with one row for each possible cell, all weights positive. -/
theorem raked_core (ord : List (Obs k α) → List (Obs k α)) (hord : ∀ l, (ord l).Perm l) (cs : List (List (Fin k))) (hcs : ∀ c ∈ cs, c ≠ []) (obs : List (Obs k α)) (hct : ∀ o ∈ obs, 0 ≤ o.ct)
    (sz : Row k α → Bool) (hsz : ∀ o ∈ obs, o.ct ≠ 0 → sz o.x = false) (fit : List (Obs k α)) (w0 : Row k α → ℝ) (hw0 : ∀ o ∈ fit, o.ct = w0 o.x) (hfw : ∀ o ∈ fit, 0 < o.ct)
    (hn : (fit.map Obs.x).Nodup) (hmem : ∀ x, x ∈ fit.map Obs.x ↔ Possible cs (obs.map Obs.x) sz x) :
    ∃ B : ℝ, ∀ tol > 0, ∃ N, ∀ maxit ≥ N, ∃ rows w e, finish cs (ord (groupBy obs)) (ord fit) tol maxit = .ok (.table rows w e) ∧ Raked cs obs sz w0 (B * tol) rows w := by
  have hp := hord fit
  have hd := hord (groupBy obs)
  set d := ord (groupBy obs) with hdef
  set F := ord fit with hF
  have hFmem : ∀ x, x ∈ F.map Obs.x ↔ Possible cs (obs.map Obs.x) sz x := fun x => by rw [(hp.map Obs.x).mem_iff]; exact hmem x
  have hFn : (F.map Obs.x).Nodup := (hp.map Obs.x).nodup_iff.2 hn
  have hFw : ∀ o ∈ F, 0 < o.ct := fun o ho => hfw o (hp.mem_iff.1 ho)
  have hF0 : ∀ o ∈ F, o.ct = w0 o.x := fun o ho => hw0 o (hp.mem_iff.1 ho)
  have hsup : ∀ o ∈ obs, o.ct ≠ 0 → o.x ∈ F.map Obs.x := by
    intro o ho h0
    rw [hFmem]
    refine ⟨fun c _ => ⟨o.x, List.mem_map.2 ⟨o, ho, rfl⟩, fun _ _ => rfl⟩, fun i _ => ⟨o.x, List.mem_map.2 ⟨o, ho, rfl⟩, rfl⟩, hsz o ho h0⟩
  refine ⟨combosCt d cs, fun tol ht => ?_⟩
  obtain ⟨N, hN⟩ := converge_core cs hcs obs d F hct hd (fun o ho => (hFw o ho).le) hFn (by
    intro o ho h0
    obtain ⟨q, hq, hx⟩ := List.mem_map.1 (hsup o ho h0)
    exact ⟨q, hq, hx, hFw q hq⟩) tol ht
  have hdct : ∀ o ∈ d, 0 ≤ o.ct := by
    intro o ho
    have := hd.mem_iff.1 ho
    unfold groupBy at this
    obtain ⟨x, _, rfl⟩ := List.mem_map.1 this
    apply List.sum_nonneg
    intro y hy
    obtain ⟨q, hq, rfl⟩ := List.mem_map.1 hy
    exact hct q (List.mem_of_mem_filter hq)
  have hdw := toTable_wt_nonneg d hdct
  have hfw' := toTable_wt_nonneg F fun o ho => (hFw o ho).le
  have hgc : ∀ x ∈ cs.map gridCol, x ≠ [] := by
    intro x hx
    obtain ⟨c, hc, rfl⟩ := List.mem_map.1 hx
    obtain ⟨i, hi⟩ := List.exists_mem_of_ne_nil c (hcs c hc)
    exact List.ne_nil_of_mem ((mem_gridCol c i.val).2 ⟨i, hi, rfl⟩)
  refine ⟨N, fun maxit hmax => ⟨F.map Obs.x, (cLoglin (toTable d) (toTable F) (cs.map gridCol) tol maxit).1, (cLoglin (toTable d) (toTable F) (cs.map gridCol) tol maxit).2, ?_, ?_⟩⟩
  · unfold finish
    rw [if_neg]
    rintro ⟨c, hc, h0⟩
    exact hcs c hc h0
  · have hrow : ∀ m < F.length, (F.map Obs.x).getD m default = (F.getD m noRow).x := by
      intro m hm
      rw [List.getD_eq_getElem _ _ (by simpa using hm), List.getD_eq_getElem _ _ hm, List.getElem_map]
    refine ⟨hFn, hFmem, (C91_nonneg _ _ hdw hfw' _ hgc tol maxit).1, ?_, ?_⟩
    · obtain ⟨b, f, hf1, hf2⟩ := factors_core cs hgc d F hdw tol maxit
      refine ⟨b, f, hf1, fun m hm => ?_⟩
      have hm' : m < F.length := by simpa using hm
      rw [hf2 m hm', hrow m hm', hF0 _ (getD_mem F m hm')]
    · intro c hc v
      by_cases hv : keyOf c v ∈ keys (toTable d) (gridCol c)
      · exact hN maxit hmax c hc v hv
      · unfold keyOf at hv
        rw [mem_keys_map] at hv
        push Not at hv
        obtain ⟨i, hi, hnot⟩ := hv
        obtain ⟨q, hq, rfl⟩ := (mem_gridCol c i).1 hi
        rw [cellOf_fin, mem_distinct_iff d obs hd] at hnot
        push Not at hnot
        have h1 : obsSum obs c v = 0 := by
          unfold obsSum
          rw [List.filter_eq_nil_iff.2]
          · rfl
          · intro o ho
            simp only [decide_eq_true_eq]
            exact fun hs => hnot o ho (hs q hq)
        have h2 : rowSum (F.map Obs.x) (cLoglin (toTable d) (toTable F) (cs.map gridCol) tol maxit).1 c v = 0 := by
          unfold rowSum
          apply Finset.sum_eq_zero
          intro m hm
          have hm' := Finset.mem_range.1 hm
          rw [if_neg]
          intro hs
          have hx : (F.map Obs.x).getD m default ∈ F.map Obs.x := by
            rw [List.getD_eq_getElem _ _ hm']
            exact List.getElem_mem hm'
          obtain ⟨r, hr, he⟩ := ((hFmem _).1 hx).1 c hc
          obtain ⟨o, ho, rfl⟩ := List.mem_map.1 hr
          exact hnot o ho ((he q hq).trans (hs q hq))
        rw [h1, h2]
        simp only [sub_zero, abs_zero]
        positivity

/-- **Fully synthetic data**: without an init table, for any variables, contrasts naming them, observations with counts that are not negative and structural zeros not among the observations: whatever the tolerance, if enough rounds are allowed, the result is the raked table of all possible cells, starting from equal weights, and every margin is met up to a multiple of the tolerance that does not depend on the tolerance. -/
theorem C175_synthetic (ord : List (Obs k α) → List (Obs k α)) (hord : ∀ l, (ord l).Perm l) (vars : Fin k → List Char) (hv : Function.Injective vars) (contrasts : List (List Char)) (hk : Known vars contrasts)
    (obs : List (Obs k α)) (hct : ∀ o ∈ obs, 0 ≤ o.ct) (sz : Row k α → Bool) (hsz : ∀ o ∈ obs, o.ct ≠ 0 → sz o.x = false) (hex : ∃ o ∈ obs, sz o.x = false) (nudge : ℝ) (hnu : 0 ≤ nudge) :
    ∃ B : ℝ, ∀ tol > 0, ∃ N, ∀ maxit ≥ N, ∃ rows w e, rake ord vars contrasts obs none sz nudge tol maxit = .ok (.table rows w e) ∧
      Raked (contrasts.map (columns vars)) obs sz (fun _ => 1) (B * tol) rows w := by
  set cs := contrasts.map (columns vars) with hcsd
  obtain ⟨p1, p2⟩ := possible_spec cs (obs.map Obs.x) sz
  set nu : ℝ := if nudge = 0 then 1 else nudge with hnud
  have hnup : 0 < nu := by
    rw [hnud]
    split_ifs with h
    · exact one_pos
    · exact lt_of_le_of_ne hnu (Ne.symm h)
  have hinit : initial cs obs none sz nudge = (possible cs (obs.map Obs.x) sz).map fun x => ⟨x, nu⟩ := rfl
  have hrows : (initial cs obs none sz nudge).map Obs.x = possible cs (obs.map Obs.x) sz := by
    rw [hinit, List.map_map]
    exact List.map_id _
  obtain ⟨o, ho, hoz⟩ := hex
  have hne : initial cs obs none sz nudge ≠ [] := by
    intro h0
    have : o.x ∈ possible cs (obs.map Obs.x) sz := (p2 _).2 ⟨fun c _ => ⟨o.x, List.mem_map.2 ⟨o, ho, rfl⟩, fun _ _ => rfl⟩, fun i _ => ⟨o.x, List.mem_map.2 ⟨o, ho, rfl⟩, rfl⟩, hoz⟩
    rw [← hrows, h0] at this
    simp at this
  obtain ⟨B, hB⟩ := raked_core ord hord cs (rake_finish ord vars hv contrasts hk obs (List.ne_nil_of_mem ho) none sz nudge 0 0 hne).2 obs hct sz hsz (initial cs obs none sz nudge) (fun _ => nu)
    (by intro q hq; rw [hinit] at hq; obtain ⟨x, _, rfl⟩ := List.mem_map.1 hq; rfl)
    (by intro q hq; rw [hinit] at hq; obtain ⟨x, _, rfl⟩ := List.mem_map.1 hq; exact hnup)
    (by rw [hrows]; exact p1) (by rw [hrows]; exact p2)
  refine ⟨B, fun tol ht => ?_⟩
  obtain ⟨N, hN⟩ := hB tol ht
  refine ⟨N, fun maxit hm => ?_⟩
  obtain ⟨rows, w, e, h1, h2⟩ := hN maxit hm
  refine ⟨rows, w, e, ?_, ?_⟩
  · rw [(rake_finish ord vars hv contrasts hk obs (List.ne_nil_of_mem ho) none sz nudge tol maxit hne).1]
    exact h1
  · obtain ⟨b, f, hf1, hf2⟩ := h2.factors
    exact ⟨h2.nodup, h2.mem, h2.nonneg, ⟨b * nu, f, hf1, fun m hm => by rw [hf2 m hm]; ring⟩, h2.margins⟩

theorem countAt_filter (ini : List (Obs k α)) (sz : Row k α → Bool) (x : Row k α) (hx : sz x = false) : countAt (ini.filter fun o => !sz o.x) x = countAt ini x := by
  unfold countAt
  rw [List.filter_filter]
  congr 2
  apply List.filter_congr
  intro o _
  by_cases h : o.x = x
  · simp [h, hx]
  · simp [h]

theorem countAt_nonneg (t : List (Obs k α)) (h : ∀ o ∈ t, 0 ≤ o.ct) (x : Row k α) : 0 ≤ countAt t x := by
  apply List.sum_nonneg
  intro y hy
  obtain ⟨q, hq, rfl⟩ := List.mem_map.1 hy
  exact h q (List.mem_of_mem_filter hq)

theorem mem_groupBy (t : List (Obs k α)) (q : Obs k α) : q ∈ groupBy t ↔ (∃ o ∈ t, o.x = q.x) ∧ q.ct = countAt t q.x := by
  constructor
  · intro h
    refine ⟨(mem_groupBy_x t q.x).1 (List.mem_map.2 ⟨q, h, rfl⟩), ?_⟩
    unfold groupBy at h
    obtain ⟨x, _, rfl⟩ := List.mem_map.1 h
    rfl
  · rintro ⟨h, hc⟩
    obtain ⟨q', hq', hx⟩ := List.mem_map.1 ((mem_groupBy_x t q.x).2 h)
    have : q' = q := by
      have hc' : q'.ct = countAt t q'.x := by
        unfold groupBy at hq'
        obtain ⟨x, _, rfl⟩ := List.mem_map.1 hq'
        rfl
      cases q; cases q'
      simp only at hx hc hc' ⊢
      subst hx
      rw [hc, hc']
    rw [← this]; exact hq'

/-- **Nudged**: with an init table whose rows have the same values as the margin table's (as when no init table but a column of initial counts is named: the margin table), and a positive nudge, the result is again a raked table of all possible cells; the initial weight of a cell is its count, or the nudge if that is zero or the cell is not in the table. -/
theorem C175_nudged (ord : List (Obs k α) → List (Obs k α)) (hord : ∀ l, (ord l).Perm l) (vars : Fin k → List Char) (hv : Function.Injective vars) (contrasts : List (List Char)) (hk : Known vars contrasts)
    (obs ini : List (Obs k α)) (hct : ∀ o ∈ obs, 0 ≤ o.ct) (hci : ∀ o ∈ ini, 0 ≤ o.ct) (hsame : ∀ x, x ∈ ini.map Obs.x ↔ x ∈ obs.map Obs.x)
    (sz : Row k α → Bool) (hsz : ∀ o ∈ obs, o.ct ≠ 0 → sz o.x = false) (hex : ∃ o ∈ obs, sz o.x = false) (nudge : ℝ) (hnu : 0 < nudge) :
    ∃ B : ℝ, ∀ tol > 0, ∃ N, ∀ maxit ≥ N, ∃ rows w e, rake ord vars contrasts obs (some ini) sz nudge tol maxit = .ok (.table rows w e) ∧
      Raked (contrasts.map (columns vars)) obs sz (fun x => if countAt ini x = 0 then nudge else countAt ini x) (B * tol) rows w := by
  set cs := contrasts.map (columns vars) with hcsd
  obtain ⟨p1, p2⟩ := possible_spec cs (obs.map Obs.x) sz
  set G := groupBy (ini.filter fun o => !sz o.x) with hG
  set Z : List (Obs k α) := (possibleExcept cs (obs.map Obs.x) sz).map fun x => ⟨x, nudge⟩ with hZ
  have hinit : initial cs obs (some ini) sz nudge = ((G ++ Z).dedup).map (nudgeZero nudge) := by
    simp only [initial, if_neg hnu.ne']
    rfl
  have hGx : ∀ x, x ∈ G.map Obs.x ↔ (∃ o ∈ ini, o.x = x) ∧ sz x = false := by
    intro x
    rw [hG, mem_groupBy_x]
    constructor
    · rintro ⟨o, ho, rfl⟩
      obtain ⟨h1, h2⟩ := List.mem_filter.1 ho
      exact ⟨⟨o, h1, rfl⟩, by simpa using h2⟩
    · rintro ⟨⟨o, ho, rfl⟩, h2⟩
      exact ⟨o, List.mem_filter.2 ⟨ho, by simpa using h2⟩, rfl⟩
  have hZx : Z.map Obs.x = possibleExcept cs (obs.map Obs.x) sz := by
    rw [hZ, List.map_map]
    exact List.map_id _
  have hZm : ∀ x, x ∈ Z.map Obs.x ↔ Possible cs (obs.map Obs.x) sz x ∧ x ∉ obs.map Obs.x := by
    intro x
    rw [hZx]
    simp only [possibleExcept, List.mem_filter, List.mem_dedup, p2, decide_eq_true_eq]
  have hnd : ((G ++ Z).map Obs.x).Nodup := by
    rw [List.map_append, List.nodup_append]
    refine ⟨?_, ?_, ?_⟩
    · rw [hG, groupBy_rows]; exact List.nodup_dedup _
    · rw [hZx]; exact (List.nodup_dedup _).filter _
    · rintro x hx y hy rfl
      obtain ⟨⟨o, ho, rfl⟩, _⟩ := (hGx x).1 hx
      exact ((hZm _).1 hy).2 ((hsame _).1 (List.mem_map.2 ⟨o, ho, rfl⟩))
  have hdd : (G ++ Z).dedup = G ++ Z := List.dedup_eq_self.2 (List.Nodup.of_map _ hnd)
  have hnx : ∀ q : Obs k α, (nudgeZero nudge q).x = q.x := by
    intro q; unfold nudgeZero; split_ifs <;> rfl
  have hrows : (initial cs obs (some ini) sz nudge).map Obs.x = (G ++ Z).map Obs.x := by
    rw [hinit, hdd, List.map_map]
    apply List.map_congr_left
    intro q _
    exact hnx q
  have hmem : ∀ x, x ∈ (G ++ Z).map Obs.x ↔ Possible cs (obs.map Obs.x) sz x := by
    intro x
    rw [List.map_append, List.mem_append, hGx, hZm]
    constructor
    · rintro (⟨⟨o, ho, rfl⟩, hz⟩ | h)
      · have := (hsame _).1 (List.mem_map.2 ⟨o, ho, rfl⟩)
        exact ⟨fun c _ => ⟨o.x, this, fun _ _ => rfl⟩, fun i _ => ⟨o.x, this, rfl⟩, hz⟩
      · exact h.1
    · intro h
      by_cases hx : x ∈ obs.map Obs.x
      · left
        obtain ⟨o, ho, he⟩ := List.mem_map.1 ((hsame x).2 hx)
        exact ⟨⟨o, ho, he⟩, h.2.2⟩
      · exact Or.inr ⟨h, hx⟩
  have hval : ∀ q ∈ G ++ Z, (nudgeZero nudge q).ct = if countAt ini q.x = 0 then nudge else countAt ini q.x := by
    intro q hq
    rcases List.mem_append.1 hq with h | h
    · have hz := ((hGx q.x).1 (List.mem_map.2 ⟨q, h, rfl⟩)).2
      have hc := ((mem_groupBy _ q).1 h).2
      rw [countAt_filter ini sz q.x hz] at hc
      unfold nudgeZero
      rw [hc]
      split_ifs with h0
      · rfl
      · exact hc
    · have hx := ((hZm q.x).1 (List.mem_map.2 ⟨q, h, rfl⟩)).2
      have h0 : countAt ini q.x = 0 := by
        unfold countAt
        rw [List.filter_eq_nil_iff.2]
        · rfl
        · intro o ho
          simp only [decide_eq_true_eq]
          intro he
          exact hx ((hsame _).1 (List.mem_map.2 ⟨o, ho, he⟩))
      rw [if_pos h0]
      have hq2 : q.ct = nudge := by
        rw [hZ] at h
        obtain ⟨x, _, rfl⟩ := List.mem_map.1 h
        rfl
      unfold nudgeZero
      rw [if_neg (by rw [hq2]; exact hnu.ne'), hq2]
  obtain ⟨o, ho, hoz⟩ := hex
  have hne : initial cs obs (some ini) sz nudge ≠ [] := by
    intro h0
    have : o.x ∈ (G ++ Z).map Obs.x := (hmem _).2 ⟨fun c _ => ⟨o.x, List.mem_map.2 ⟨o, ho, rfl⟩, fun _ _ => rfl⟩, fun i _ => ⟨o.x, List.mem_map.2 ⟨o, ho, rfl⟩, rfl⟩, hoz⟩
    rw [← hrows, h0] at this
    simp at this
  obtain ⟨B, hB⟩ := raked_core ord hord cs (rake_finish ord vars hv contrasts hk obs (List.ne_nil_of_mem ho) (some ini) sz nudge 0 0 hne).2 obs hct sz hsz (initial cs obs (some ini) sz nudge) (fun x => if countAt ini x = 0 then nudge else countAt ini x)
    (by
      intro q hq; rw [hinit, hdd] at hq
      obtain ⟨q', hq', rfl⟩ := List.mem_map.1 hq
      rw [hval q' hq', hnx])
    (by
      intro q hq; rw [hinit, hdd] at hq
      obtain ⟨q', hq', rfl⟩ := List.mem_map.1 hq
      rw [hval q' hq']
      split_ifs with h
      · exact hnu
      · exact lt_of_le_of_ne (countAt_nonneg ini hci _) (Ne.symm h))
    (by rw [hrows]; exact hnd) (by rw [hrows]; exact hmem)
  refine ⟨B, fun tol ht => ?_⟩
  obtain ⟨N, hN⟩ := hB tol ht
  refine ⟨N, fun maxit hm => ?_⟩
  obtain ⟨rows, w, e, h1, h2⟩ := hN maxit hm
  refine ⟨rows, w, e, ?_, h2⟩
  rw [(rake_finish ord vars hv contrasts hk obs (List.ne_nil_of_mem ho) (some ini) sz nudge tol maxit hne).1]
  exact h1

/-- **Init table**: without nudge, the result has one row for each combination in the init table that is no structural zero; the weights are the initial counts times a constant and a factor for each contrast, so a cell without initial count keeps weight zero; and if each observation that counts is in a cell with positive initial count, then with enough rounds the margins are met, for all values that occur among the observations, up to a multiple of the tolerance. -/
theorem C175_init (ord : List (Obs k α) → List (Obs k α)) (hord : ∀ l, (ord l).Perm l) (vars : Fin k → List Char) (hv : Function.Injective vars) (contrasts : List (List Char)) (hk : Known vars contrasts)
    (obs ini : List (Obs k α)) (ho : obs ≠ []) (hct : ∀ o ∈ obs, 0 ≤ o.ct) (hci : ∀ o ∈ ini, 0 ≤ o.ct) (sz : Row k α → Bool) (hex : ∃ o ∈ ini, sz o.x = false) :
    ∃ B : ℝ, ∀ tol > 0, ∃ N, ∀ maxit, ∃ rows w e, rake ord vars contrasts obs (some ini) sz 0 tol maxit = .ok (.table rows w e) ∧
      rows.Nodup ∧ (∀ x, x ∈ rows ↔ x ∈ ini.map Obs.x ∧ sz x = false) ∧ (∀ m, 0 ≤ w m) ∧
      (∃ (b : ℝ) (f : ℕ → Row k α → ℝ), (∀ j x y, Same ((contrasts.map (columns vars)).getD j []) x y → f j x = f j y) ∧ ∀ m < rows.length,
        w m = b * countAt ini (rows.getD m default) * ∏ j ∈ Finset.range contrasts.length, f j (rows.getD m default)) ∧
      ((∀ o ∈ obs, o.ct ≠ 0 → sz o.x = false ∧ 0 < countAt ini o.x) → N ≤ maxit → ∀ c ∈ contrasts.map (columns vars), ∀ v : Row k α, (∀ i ∈ c, ∃ o ∈ obs, o.x i = v i) → |rowSum rows w c v - obsSum obs c v| ≤ B * tol) := by
  set cs := contrasts.map (columns vars) with hcsd
  set G := groupBy (ini.filter fun o => !sz o.x) with hG
  have hinit : initial cs obs (some ini) sz 0 = G := by simp [initial, hG]
  have hGx : ∀ x, x ∈ G.map Obs.x ↔ x ∈ ini.map Obs.x ∧ sz x = false := by
    intro x
    rw [hG, mem_groupBy_x]
    constructor
    · rintro ⟨o, ho, rfl⟩
      obtain ⟨h1, h2⟩ := List.mem_filter.1 ho
      exact ⟨List.mem_map.2 ⟨o, h1, rfl⟩, by simpa using h2⟩
    · rintro ⟨h1, h2⟩
      obtain ⟨o, ho, rfl⟩ := List.mem_map.1 h1
      exact ⟨o, List.mem_filter.2 ⟨ho, by simpa using h2⟩, rfl⟩
  have hne : initial cs obs (some ini) sz 0 ≠ [] := by
    obtain ⟨o, ho, hz⟩ := hex
    rw [hinit]
    intro h0
    have := (hGx o.x).2 ⟨List.mem_map.2 ⟨o, ho, rfl⟩, hz⟩
    rw [h0] at this
    simp at this
  have hGn : (G.map Obs.x).Nodup := by rw [hG, groupBy_rows]; exact List.nodup_dedup _
  have hGc : ∀ q ∈ G, q.ct = countAt ini q.x := by
    intro q hq
    rw [((mem_groupBy _ q).1 hq).2]
    exact countAt_filter ini sz q.x ((hGx q.x).1 (List.mem_map.2 ⟨q, hq, rfl⟩)).2
  have hp := hord G
  have hd := hord (groupBy obs)
  set d := ord (groupBy obs) with hdef
  set F := ord G with hF
  have hcs := (rake_finish ord vars hv contrasts hk obs ho (some ini) sz 0 0 0 hne).2
  have hdw : ∀ m, 0 ≤ (toTable d).wt m := by
    apply toTable_wt_nonneg
    intro o ho
    rw [((mem_groupBy _ o).1 (hd.mem_iff.1 ho)).2]
    exact countAt_nonneg obs hct _
  have hFct : ∀ o ∈ F, o.ct = countAt ini o.x := fun o ho => hGc o (hp.mem_iff.1 ho)
  have hF0 : ∀ o ∈ F, 0 ≤ o.ct := fun o ho => by rw [hFct o ho]; exact countAt_nonneg ini hci _
  have hgc : ∀ x ∈ cs.map gridCol, x ≠ [] := by
    intro x hx
    obtain ⟨c, hc, rfl⟩ := List.mem_map.1 hx
    obtain ⟨i, hi⟩ := List.exists_mem_of_ne_nil c (hcs c hc)
    exact List.ne_nil_of_mem ((mem_gridCol c i.val).2 ⟨i, hi, rfl⟩)
  have hFn : (F.map Obs.x).Nodup := (hp.map Obs.x).nodup_iff.2 hGn
  refine ⟨combosCt d cs, fun tol ht => ?_⟩
  have hconv : ∃ N, ∀ maxit ≥ N, (∀ o ∈ obs, o.ct ≠ 0 → sz o.x = false ∧ 0 < countAt ini o.x) → ∀ c ∈ cs, ∀ v : Row k α, (∀ i ∈ c, ∃ o ∈ obs, o.x i = v i) →
      |rowSum (F.map Obs.x) (cLoglin (toTable d) (toTable F) (cs.map gridCol) tol maxit).1 c v - obsSum obs c v| ≤ combosCt d cs * tol := by
    by_cases hq : ∀ o ∈ obs, o.ct ≠ 0 → sz o.x = false ∧ 0 < countAt ini o.x
    · obtain ⟨N, hN⟩ := converge_core cs hcs obs d F hct hd hF0 hFn (by
        intro o ho h0
        obtain ⟨hz, hpos⟩ := hq o ho h0
        have hin : o.x ∈ ini.map Obs.x := by
          by_contra hc
          have : countAt ini o.x = 0 := by
            unfold countAt
            rw [List.filter_eq_nil_iff.2]
            · rfl
            · intro q hq
              simp only [decide_eq_true_eq]
              intro he
              exact hc (List.mem_map.2 ⟨q, hq, he⟩)
          rw [this] at hpos
          exact lt_irrefl _ hpos
        obtain ⟨q, hq, hx⟩ := List.mem_map.1 ((hGx o.x).2 ⟨hin, hz⟩)
        refine ⟨q, hp.mem_iff.2 hq, hx, ?_⟩
        rw [hGc q hq, hx]
        exact hpos) tol ht
      refine ⟨N, fun maxit hm _ c hc v hv => hN maxit hm c hc v ?_⟩
      unfold keyOf
      rw [mem_keys_map]
      intro i hi
      obtain ⟨j, hj, rfl⟩ := (mem_gridCol c i).1 hi
      rw [cellOf_fin, mem_distinct_iff d obs hd]
      exact hv j hj
    · exact ⟨0, fun _ _ h => absurd h hq⟩
  obtain ⟨N, hN⟩ := hconv
  refine ⟨N, fun maxit => ⟨F.map Obs.x, (cLoglin (toTable d) (toTable F) (cs.map gridCol) tol maxit).1, (cLoglin (toTable d) (toTable F) (cs.map gridCol) tol maxit).2, ?_, hFn, ?_,
    (C91_nonneg _ _ hdw (toTable_wt_nonneg F hF0) _ hgc tol maxit).1, ?_, fun hq hm => hN maxit hm hq⟩⟩
  · rw [(rake_finish ord vars hv contrasts hk obs ho (some ini) sz 0 tol maxit hne).1]
    unfold finish
    rw [if_neg]
    · rw [hinit]
    · rintro ⟨c, hc, h0⟩
      exact hcs c hc h0
  · intro x
    rw [(hp.map Obs.x).mem_iff]
    exact hGx x
  · obtain ⟨b, f, hf1, hf2⟩ := factors_core cs hgc d F hdw tol maxit
    refine ⟨b, f, hf1, fun m hm => ?_⟩
    have hm' : m < F.length := by simpa using hm
    have hrow : (F.map Obs.x).getD m default = (F.getD m noRow).x := by
      rw [List.getD_eq_getElem _ _ hm, List.getD_eq_getElem _ _ hm', List.getElem_map]
    rw [hf2 m hm', hrow, hFct _ (getD_mem F m hm'), hcsd, List.length_map]

/-- **Completeness**: take any table without negative counts, with structural zeros zero, whose values in the variables outside the contrasts occur among the observations, and whose margins in all contrasts are the observations'. Each row of it that counts is among the possible cells: no cell that could be nonzero is left out. -/
theorem C175_complete (cs : List (List (Fin k))) (obs : List (Obs k α)) (sz : Row k α → Bool) (p : List (Obs k α)) (hp : ∀ o ∈ p, 0 ≤ o.ct) (hz : ∀ o ∈ p, o.ct ≠ 0 → sz o.x = false)
    (hu : ∀ o ∈ p, o.ct ≠ 0 → ∀ i, (∀ c ∈ cs, i ∉ c) → ∃ q ∈ obs, q.x i = o.x i) (hm : ∀ c ∈ cs, ∀ v, obsSum p c v = obsSum obs c v) : ∀ o ∈ p, o.ct ≠ 0 → o.x ∈ possible cs (obs.map Obs.x) sz := by
  intro o ho h0
  rw [(possible_spec cs (obs.map Obs.x) sz).2]
  refine ⟨fun c hc => ?_, fun i hi => ?_, hz o ho h0⟩
  · have hpos : 0 < obsSum p c o.x := by
      have hle := List.single_le_sum (l := (p.filter fun q => decide (Same c q.x o.x)).map Obs.ct) (by
        intro y hy
        obtain ⟨q, hq, rfl⟩ := List.mem_map.1 hy
        exact hp q (List.mem_of_mem_filter hq)) o.ct (List.mem_map.2 ⟨o, List.mem_filter.2 ⟨ho, by simp [Same]⟩, rfl⟩)
      have hle' : o.ct ≤ obsSum p c o.x := hle
      have : 0 < o.ct := lt_of_le_of_ne (hp o ho) (Ne.symm h0)
      linarith
    rw [hm c hc] at hpos
    by_contra hne
    push Not at hne
    have : obsSum obs c o.x = 0 := by
      unfold obsSum
      rw [List.filter_eq_nil_iff.2]
      · rfl
      · intro q hq
        simp only [decide_eq_true_eq]
        intro hs
        obtain ⟨i, hi, h⟩ := hne q.x (List.mem_map.2 ⟨q, hq, rfl⟩)
        exact h (hs i hi)
    rw [this] at hpos
    exact lt_irrefl _ hpos
  · obtain ⟨q, hq, he⟩ := hu o ho h0 i hi
    exact ⟨q.x, List.mem_map.2 ⟨q, hq, rfl⟩, he⟩

/-- **Errors**: a name that is no variable, where the possible cells are asked for, or a margin table without rows: the error 'q'. If all cells are structural zeros, there being no init table, or a contrast names nothing: undefined. -/
theorem C175_errors (ord : List (Obs k α) → List (Obs k α)) (vars : Fin k → List Char) (hv : Function.Injective vars) (contrasts : List (List Char)) (obs : List (Obs k α)) (sz : Row k α → Bool) (nudge tol : ℝ) (maxit : ℕ) :
    (∀ s ∈ contrasts, ∀ nm ∈ parsePipe [] false s, (∀ i, vars i ≠ nm) → rake ord vars contrasts obs none sz nudge tol maxit = .ok (.err 'q')) ∧
    (∀ init, rake ord vars contrasts [] init sz nudge tol maxit = .ok (.err 'q')) ∧
    (Known vars contrasts → obs ≠ [] → (∀ x, sz x = true) → rake ord vars contrasts obs none sz nudge tol maxit = .ub) := by
  refine ⟨fun s hs nm hnm hno => ?_, fun init => ?_, fun hk ho hall => ?_⟩
  · unfold rake
    simp only
    rw [if_pos]
    refine ⟨Or.inl trivial, _, List.mem_map.2 ⟨s, hs, rfl⟩, nm, hnm, ?_⟩
    cases h : varIndex vars nm with
    | none => rfl
    | some i => exact absurd ((varIndex_some vars hv nm i).1 h) (hno i)
  · unfold rake
    simp only
    split_ifs <;> rfl
  · unfold rake
    simp only
    rw [if_neg, if_neg ho, if_pos, if_pos trivial]
    · have : ∀ cs, possible cs (obs.map Obs.x) sz = [] := by
        intro cs
        unfold possible
        rw [List.filter_eq_nil_iff]
        intro x _
        simp [hall x]
      simp [initial, this]
    · rintro ⟨_, ns, hns, nm, hnm, h0⟩
      obtain ⟨s, hs, rfl⟩ := List.mem_map.1 hns
      obtain ⟨i, hi⟩ := (hk s hs).2 nm hnm
      rw [(varIndex_some vars hv nm i).2 hi] at h0
      cases h0

theorem finish_rows {cs : List (List (Fin k))} {d fit : List (Obs k α)} {tol : ℝ} {maxit : ℕ} (hcs : ∀ c ∈ cs, c ≠ []) : ∃ w e, finish cs d fit tol maxit = .ok (.table (fit.map Obs.x) w e) := by
  unfold finish
  rw [if_neg]
  · exact ⟨_, _, rfl⟩
  · rintro ⟨c, hc, h0⟩
    exact hcs c hc h0

/-- **Nudge with an init table of its own fails**: the cells nudged are those not in the *margin* table. A combination of the margin table that is not in the init table gets no row, so its margin can't be met; -/
theorem C175_nudge_lost_refuted (ord : List (Obs k α) → List (Obs k α)) (hord : ∀ l, (ord l).Perm l) (vars : Fin k → List Char) (hv : Function.Injective vars) (contrasts : List (List Char)) (hk : Known vars contrasts)
    (obs ini : List (Obs k α)) (sz : Row k α → Bool) (nudge : ℝ) (hex : ∃ o ∈ ini, sz o.x = false) (x : Row k α) (hx : x ∈ obs.map Obs.x) (hxi : x ∉ ini.map Obs.x) (tol : ℝ) (maxit : ℕ) :
    ∃ rows w e, rake ord vars contrasts obs (some ini) sz nudge tol maxit = .ok (.table rows w e) ∧ x ∉ rows := by
  set cs := contrasts.map (columns vars) with hcsd
  have ho : obs ≠ [] := by
    rintro rfl
    simp at hx
  have hG : ∀ y, y ∈ (groupBy (ini.filter fun o => !sz o.x)).map Obs.x → y ∈ ini.map Obs.x := by
    intro y hy
    obtain ⟨o, ho, rfl⟩ := (mem_groupBy_x _ y).1 hy
    exact List.mem_map.2 ⟨o, List.mem_of_mem_filter ho, rfl⟩
  obtain ⟨o, ho', hoz⟩ := hex
  have hoG : ∃ q ∈ groupBy (ini.filter fun o => !sz o.x), q.x = o.x := by
    have := (mem_groupBy_x (ini.filter fun o => !sz o.x) o.x).2 ⟨o, List.mem_filter.2 ⟨ho', by simp [hoz]⟩, rfl⟩
    exact List.mem_map.1 this
  obtain ⟨g, hg, _⟩ := hoG
  have hne : initial cs obs (some ini) sz nudge ≠ [] := by
    unfold initial
    simp only
    split_ifs
    · exact List.ne_nil_of_mem hg
    · unfold fitNudged
      intro h0
      rw [List.map_eq_nil_iff, List.dedup_eq_nil, List.append_eq_nil_iff] at h0
      rw [h0.1] at hg
      simp at hg
  obtain ⟨e1, hcs⟩ := rake_finish ord vars hv contrasts hk obs ho (some ini) sz nudge tol maxit hne
  obtain ⟨w, e, e2⟩ := finish_rows (d := ord (groupBy obs)) (fit := ord (initial cs obs (some ini) sz nudge)) (tol := tol) (maxit := maxit) hcs
  refine ⟨_, w, e, e1.trans e2, ?_⟩
  rw [((hord _).map Obs.x).mem_iff]
  unfold initial
  simp only
  split_ifs
  · exact fun h => hxi (hG x h)
  · unfold fitNudged
    intro h
    obtain ⟨q, hq, rfl⟩ := List.mem_map.1 h
    obtain ⟨q', hq', rfl⟩ := List.mem_map.1 hq
    have hnx : (nudgeZero nudge q').x = q'.x := by unfold nudgeZero; split_ifs <;> rfl
    rw [hnx] at hx hxi
    rw [List.mem_dedup, List.mem_append] at hq'
    rcases hq' with h | h
    · exact hxi (hG _ (List.mem_map.2 ⟨q', h, rfl⟩))
    · obtain ⟨y, hy, rfl⟩ := List.mem_map.1 h
      simp only [possibleExcept, List.mem_filter, decide_eq_true_eq] at hy
      exact hy.2 hx

/-- and a possible cell of the init table that is not in the margin table gets two rows, unless its count happens to be the nudge. -/
theorem C175_nudge_twice_refuted (ord : List (Obs k α) → List (Obs k α)) (hord : ∀ l, (ord l).Perm l) (vars : Fin k → List Char) (hv : Function.Injective vars) (contrasts : List (List Char)) (hk : Known vars contrasts)
    (obs ini : List (Obs k α)) (ho : obs ≠ []) (sz : Row k α → Bool) (nudge : ℝ) (hnu : nudge ≠ 0) (x : Row k α) (hx : x ∉ obs.map Obs.x) (hxi : x ∈ ini.map Obs.x)
    (hp : Possible (contrasts.map (columns vars)) (obs.map Obs.x) sz x) (hc : countAt ini x ≠ nudge) (tol : ℝ) (maxit : ℕ) :
    ∃ rows w e, rake ord vars contrasts obs (some ini) sz nudge tol maxit = .ok (.table rows w e) ∧ ¬ rows.Nodup := by
  set cs := contrasts.map (columns vars) with hcsd
  obtain ⟨p1, p2⟩ := possible_spec cs (obs.map Obs.x) sz
  obtain ⟨o, hoi, hox⟩ := List.mem_map.1 hxi
  have m1 : (⟨x, countAt ini x⟩ : Obs k α) ∈ groupBy (ini.filter fun o => !sz o.x) := by
    rw [mem_groupBy]
    refine ⟨⟨o, List.mem_filter.2 ⟨hoi, by rw [hox]; simp [hp.2.2]⟩, hox⟩, ?_⟩
    exact (countAt_filter ini sz x hp.2.2).symm
  have m2 : (⟨x, nudge⟩ : Obs k α) ∈ (possibleExcept cs (obs.map Obs.x) sz).map fun x => (⟨x, nudge⟩ : Obs k α) := by
    refine List.mem_map.2 ⟨x, ?_, rfl⟩
    simp only [possibleExcept, List.mem_filter, List.mem_dedup, decide_eq_true_eq]
    exact ⟨(p2 x).2 hp, hx⟩
  have hini : initial cs obs (some ini) sz nudge = fitNudged cs obs ini sz nudge := by simp [initial, hnu]
  have hne : initial cs obs (some ini) sz nudge ≠ [] := by
    rw [hini]
    unfold fitNudged
    intro h0
    rw [List.map_eq_nil_iff, List.dedup_eq_nil, List.append_eq_nil_iff] at h0
    rw [h0.1] at m1
    simp at m1
  obtain ⟨e1, hcs⟩ := rake_finish ord vars hv contrasts hk obs ho (some ini) sz nudge tol maxit hne
  obtain ⟨w, e, e2⟩ := finish_rows (d := ord (groupBy obs)) (fit := ord (initial cs obs (some ini) sz nudge)) (tol := tol) (maxit := maxit) hcs
  refine ⟨_, w, e, e1.trans e2, ?_⟩
  rw [((hord _).map Obs.x).nodup_iff, hini]
  unfold fitNudged
  rw [List.map_map]
  have hnx : (Obs.x ∘ nudgeZero nudge : Obs k α → Row k α) = Obs.x := by
    funext q
    simp only [Function.comp, nudgeZero]
    split_ifs <;> rfl
  rw [hnx]
  intro hnd
  have := List.inj_on_of_nodup_map hnd (List.mem_dedup.2 (List.mem_append.2 (Or.inl m1))) (List.mem_dedup.2 (List.mem_append.2 (Or.inr m2))) rfl
  rw [Obs.mk.injEq] at this
  exact hc this.2

/-! ## Cases -/

/-- Two variables. -/
def exVars : Fin 2 → List Char := ![['a', 'g', 'e'], ['s', 'e', 'x']]

theorem exVars_inj : Function.Injective exVars := by
  intro i j h
  fin_cases i <;> fin_cases j <;> first | rfl | (exfalso; revert h; decide)

/-- The contrasts " age |sex" and "sex". -/
def exCon : List (List Char) := [[' ', 'a', 'g', 'e', ' ', '|', 's', 'e', 'x'], ['s', 'e', 'x']]

theorem exCon_known : Known exVars exCon := by
  have e1 : parsePipe [] false [' ', 'a', 'g', 'e', ' ', '|', 's', 'e', 'x'] = [['a', 'g', 'e'], ['s', 'e', 'x']] := by decide
  have e2 : parsePipe [] false ['s', 'e', 'x'] = [['s', 'e', 'x']] := by decide
  intro s hs
  simp only [exCon, List.mem_cons, List.not_mem_nil, or_false] at hs
  rcases hs with rfl | rfl
  · rw [e1]
    refine ⟨by simp, ?_⟩
    intro nm hnm
    simp only [List.mem_cons, List.not_mem_nil, or_false] at hnm
    rcases hnm with rfl | rfl
    · exact ⟨0, rfl⟩
    · exact ⟨1, rfl⟩
  · rw [e2]
    refine ⟨by simp, ?_⟩
    intro nm hnm
    simp only [List.mem_cons, List.not_mem_nil, or_false] at hnm
    rw [hnm]
    exact ⟨1, rfl⟩

/-- The hypotheses of the theorem on synthetic data are met, with a structural zero. -/
example : ∃ B : ℝ, ∀ tol > 0, ∃ N, ∀ maxit ≥ N, ∃ rows w e, rake id exVars exCon [⟨![0, 0], 3⟩, ⟨![1, 1], 2⟩, ⟨![1, 0], 0⟩] none (fun x : Row 2 ℕ => decide (x = ![1, 0])) 0 tol maxit = .ok (.table rows w e) ∧
    Raked (exCon.map (columns exVars)) [⟨![0, 0], 3⟩, ⟨![1, 1], 2⟩, ⟨![1, 0], 0⟩] (fun x : Row 2 ℕ => decide (x = ![1, 0])) (fun _ => 1) (B * tol) rows w := by
  apply C175_synthetic id (fun l => List.Perm.refl _) exVars exVars_inj exCon exCon_known
  · simp
  · simp [funext_iff, Fin.forall_fin_two]
  · exact ⟨⟨![0, 0], 3⟩, by simp, by simp [funext_iff, Fin.forall_fin_two]⟩
  · exact le_refl _

/-- Those of the refutations: margin table (0,0), (1,1), init table (0,0) with 4 and (0,1) with 5; contrasts "age" and "sex", nudge 1: (1,1) is lost and (0,1) is there twice. -/
example (tol : ℝ) (maxit : ℕ) : ∃ rows w e, rake id exVars [['a', 'g', 'e'], ['s', 'e', 'x']] [⟨![0, 0], 3⟩, ⟨![1, 1], 2⟩] (some [⟨![0, 0], 4⟩, ⟨(![0, 1] : Row 2 ℕ), 5⟩]) (fun _ => false) 1 tol maxit = .ok (.table rows w e) ∧
    ![1, 1] ∉ rows ∧ ¬ rows.Nodup := by
  have hk : Known exVars [['a', 'g', 'e'], ['s', 'e', 'x']] := by
    have e1 : parsePipe [] false ['a', 'g', 'e'] = [['a', 'g', 'e']] := by decide
    have e2 : parsePipe [] false ['s', 'e', 'x'] = [['s', 'e', 'x']] := by decide
    intro s hs
    simp only [List.mem_cons, List.not_mem_nil, or_false] at hs
    rcases hs with rfl | rfl
    · rw [e1]; exact ⟨by simp, fun nm h => ⟨0, (List.mem_singleton.1 h).symm⟩⟩
    · rw [e2]; exact ⟨by simp, fun nm h => ⟨1, (List.mem_singleton.1 h).symm⟩⟩
  obtain ⟨rows, w, e, h1, h2⟩ := C175_nudge_lost_refuted id (fun l => List.Perm.refl _) exVars exVars_inj _ hk [⟨![0, 0], 3⟩, ⟨![1, 1], 2⟩] [⟨![0, 0], 4⟩, ⟨(![0, 1] : Row 2 ℕ), 5⟩] (fun _ => false) 1 ⟨⟨![0, 0], 4⟩, by simp, rfl⟩ ![1, 1] (by simp) (by simp [funext_iff, Fin.forall_fin_two]) tol maxit
  refine ⟨rows, w, e, h1, h2, ?_⟩
  obtain ⟨rows', w', e', h1', h2'⟩ := C175_nudge_twice_refuted id (fun l => List.Perm.refl _) exVars exVars_inj _ hk [⟨![0, 0], 3⟩, ⟨![1, 1], 2⟩] [⟨![0, 0], 4⟩, ⟨(![0, 1] : Row 2 ℕ), 5⟩] (by simp) (fun _ => false) 1 one_ne_zero ![0, 1]
    (by simp [funext_iff, Fin.forall_fin_two]) (by simp) (by
      have c0 : ∀ j, j ∈ columns exVars ['a', 'g', 'e'] ↔ j = 0 := by
        intro j
        rw [C175_columns exVars exVars_inj]
        fin_cases j <;> decide
      have c1 : ∀ j, j ∈ columns exVars ['s', 'e', 'x'] ↔ j = 1 := by
        intro j
        rw [C175_columns exVars exVars_inj]
        fin_cases j <;> decide
      refine ⟨?_, ?_, rfl⟩
      · intro c hc
        simp only [List.map_cons, List.map_nil, List.mem_cons, List.not_mem_nil, or_false] at hc
        rcases hc with rfl | rfl
        · refine ⟨![0, 0], by simp, fun i hi => ?_⟩
          rw [(c0 i).1 hi]; rfl
        · refine ⟨![1, 1], by simp, fun i hi => ?_⟩
          rw [(c1 i).1 hi]; rfl
      · intro i hi
        exfalso
        fin_cases i
        · exact hi _ (by simp) ((c0 0).2 rfl)
        · exact hi (columns exVars ['s', 'e', 'x']) (by simp) ((c1 1).2 rfl)) (by
      have : ¬ (![0, 0] : Row 2 ℕ) = ![0, 1] := by simp [funext_iff, Fin.forall_fin_two]
      simp [countAt, this]) tol maxit
  rw [h1] at h1'
  cases h1'
  exact h2'

end Apop.Rake
