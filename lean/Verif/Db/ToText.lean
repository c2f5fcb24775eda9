import Verif.Db.ToData
import Verif.Text.Props

/-! # From queries to text: `apop_query_to_text` (C105)

The text grid, and the functions that change it, are those of C09 and C10. The strings that come from the database are given to `apop_text_set` as its `printf` format. -/

namespace Apop.Db.ToText
open Apop.Text Apop.Db.ToData

/-- `vasprintf` with no arguments: bytes other than `%` (37) stand for themselves, `%%` is one of them, and any other conversion reads an argument that was not passed. Simplified: the conversions that read no argument (`%m`) are counted as undefined too. -/
def printf : CStr → Res CStr
  | [] => .ok []
  | [c] => if c = 37 then .ub else .ok [c]
  | c :: d :: r =>
    if c = 37 then (if d = 37 then (printf r).map (37 :: ·) else .ub)
    else (printf (d :: r)).map (c :: ·)

/-- The search for the column with the names, apop_db_sqlite.c:190-196. -/
def findCol (name : Option CStr) (cols : List CStr) : Option Nat :=
  match name with
  | none => none
  | some n => cols.findIdx? fun c => caseEq c n

/-- `callback_t` with its data set's text and names; `first` is `firstcall`. -/
structure State where
  first : Bool := true
  nc : Option Nat := none
  grid : Grid := {}
  names : Names := .alloc

/-- The loop over the elements of a row, apop_db_sqlite.c:201-210, from the `j`-th on. `add` is `addnames`. -/
def cells (nan : CStr) (nc : Option Nat) (add : Bool) (row : Nat) : Nat → Nat → List (CStr × Option CStr) → Grid × Names → Res (Grid × Names)
  | _, _, [], s => .ok s
  | j, shift, (c, a) :: as, (g, n) =>
    if nc = some j then cells nan nc add row (j + 1) (shift + 1) as (g, (n.add a 'r').1)
    else (printf (a.getD nan)).bind fun s => (Text.set g nan row (j - shift) (some s)).bind fun g' =>
      cells nan nc add row (j + 1) shift as (g'.1, if add then (n.add (some c) 't').1 else n)

/-- `db_to_chars`, apop_db_sqlite.c:184-212; `nan` is `apop_opts.nan_string`, which is not NULL. -/
def dbToChars (name : Option CStr) (nan : CStr) (cols : List CStr) (s : State) (argv : List (Option CStr)) : Res State :=
  let nc := if s.first then findCol name cols else s.nc
  (Text.alloc s.grid (s.grid.size.1 + 1) (argv.length - (if nc.isSome then 1 else 0))).bind fun g =>
    (cells nan nc (s.names.text.length == 0) s.grid.size.1 0 0 (cols.zip argv) (g, s.names)).bind fun r =>
      .ok ⟨false, nc, r.1, r.2⟩

/-- The callback on the rows, in order. -/
def run (name : Option CStr) (nan : CStr) (cols : List CStr) : State → List (List (Option CStr)) → Res State
  | s, [] => .ok s
  | s, r :: rs => (dbToChars name nan cols s r).bind fun s' => run name nan cols s' rs

/-- What is returned: the text, the names, and whether there is an error. -/
structure Result where
  grid : Grid
  names : Names
  error : Bool

/-- `apop_sqlite_query_to_text`, apop_db_sqlite.c:213-224; `none` is NULL. -/
def queryToText (name : Option CStr) (nan : CStr) (a : Answer) : Res (Option Result) :=
  (run name nan a.cols {} a.rows).bind fun s =>
    .ok (if a.err then some ⟨s.grid, s.names, true⟩ else if s.grid.size.1 = 0 then none else some ⟨s.grid, s.names, false⟩)

/-! ## Specification -/

/-- A string that `printf` prints as it is. -/
def Plain (s : CStr) : Prop := (37 : UInt8) ∉ s

/-- All the strings that go to the text are. -/
def AllPlain (name : Option CStr) (nan : CStr) (a : Answer) : Prop :=
  ∀ r ∈ a.rows, ∀ x ∈ without (findCol name a.cols) r, Plain (x.getD nan)

/-! ## Proofs -/

theorem printf_plain : ∀ s, Plain s → printf s = .ok s
  | [], _ => rfl
  | [c], h => by
    have : c ≠ 37 := fun e => h (by simp [e])
    simp [printf, this]
  | c :: d :: r, h => by
    have hc : c ≠ 37 := fun e => h (by simp [e])
    have := printf_plain (d :: r) (fun e => h (List.mem_cons_of_mem _ e))
    simp [printf, hc, this, Res.map]

theorem findCol_lt (name : Option CStr) (cols : List CStr) (k : Nat) (h : findCol name cols = some k) : k < cols.length := by
  unfold findCol at h
  split at h
  · simp at h
  · exact (List.findIdx?_eq_some_iff_findIdx_eq.1 h).1

/-- What a loop over cells does: from column `p` on, the elements of `xs` are written in row `row`. -/
def fillFrom (nan : CStr) (row p : Nat) (xs : List (Option CStr)) (g g' : Grid) : Prop :=
  g'.WF ∧ g'.size = g.size ∧ ∀ i j, g'.get i j = if i = row ∧ p ≤ j ∧ j < p + xs.length then (xs[j - p]?).map (·.getD nan) else g.get i j

theorem cells_after (nan : CStr) (nc : Option Nat) (add : Bool) (row : Nat) : ∀ (as : List (CStr × Option CStr)) (j shift : Nat) (g : Grid) (n : Names),
    g.WF → row < g.size.1 → row < 2 ^ 31 - 1 → g.size.2 < 2 ^ 31 → shift ≤ j → j - shift + as.length = g.size.2 → (∀ x ∈ as, Plain (x.2.getD nan)) → (∀ k, nc = some k → k < j) →
    ∃ g' n', cells nan nc add row j shift as (g, n) = .ok (g', n') ∧ fillFrom nan row (j - shift) (as.map Prod.snd) g g' ∧
      n'.row = n.row ∧ n'.text = n.text ++ (if add then as.map Prod.fst else []) := by
  intro as
  induction as with
  | nil => intro j shift g n hg _ _ _ _ _ _ _; exact ⟨g, n, rfl, ⟨hg, rfl, fun i j' => by rw [if_neg (by simp)]⟩, rfl, by simp⟩
  | cons x as ih =>
    intro j shift g n hg hr hr2 hw hs hl hp hk
    obtain ⟨c, a⟩ := x
    have hne : nc ≠ some j := fun e => by have := hk j e; omega
    simp only [List.length_cons] at hl
    have hset := C10_text_set g hg nan row (j - shift) (some (a.getD nan)) hr2 (by omega)
    rw [if_pos ⟨hr, by omega⟩] at hset
    obtain ⟨g1, e1, w1, s1, get1⟩ := hset
    obtain ⟨g', n', e2, ⟨w2, s2, get2⟩, r2, t2⟩ := ih (j + 1) shift g1 (if add then (n.add (some c) 't').1 else n) w1 (by rw [s1]; exact hr) hr2 (by rw [s1]; exact hw) (by omega) (by rw [s1]; omega) (fun x hx => hp x (by simp [hx])) (fun k h => by have := hk k h; omega)
    refine ⟨g', n', ?_, ⟨w2, s2.trans s1, ?_⟩, ?_, ?_⟩
    · rw [cells, if_neg hne, printf_plain _ (hp (c, a) (by simp))]
      simp only [Res.bind, e1]
      exact e2
    · intro i j'
      rw [get2 i j', get1 i j']
      have hsub : j + 1 - shift = j - shift + 1 := by omega
      rw [hsub]
      simp only [List.length_map, List.map_cons, List.length_cons]
      by_cases hi : i = row
      · by_cases hj : j' = j - shift
        · subst hj
          rw [if_neg (by omega), if_pos ⟨hi, rfl⟩, if_pos (by omega)]
          simp
        · by_cases hj2 : j - shift + 1 ≤ j' ∧ j' < j - shift + 1 + as.length
          · rw [if_pos ⟨hi, hj2⟩, if_pos (by omega)]
            have : j' - (j - shift) = (j' - (j - shift + 1)) + 1 := by omega
            rw [this, List.getElem?_cons_succ]
          · rw [if_neg (by omega), if_neg (by omega), if_neg (by omega)]
      · rw [if_neg (by omega), if_neg (by omega), if_neg (by omega)]
    · rw [r2]; cases add <;> simp [Names.add]
    · rw [t2]; cases add <;> simp [Names.add]

theorem cells_before (nan : CStr) (nc : Option Nat) (add : Bool) (row : Nat) : ∀ (as : List (CStr × Option CStr)) (j : Nat) (g : Grid) (n : Names),
    g.WF → row < g.size.1 → row < 2 ^ 31 - 1 → g.size.2 < 2 ^ 31 → j + as.length - (if nc.isSome then 1 else 0) = g.size.2 →
    (∀ x ∈ without (nc.map (· - j)) (as.map Prod.snd), Plain (x.getD nan)) → (∀ k, nc = some k → j ≤ k ∧ k < j + as.length) →
    ∃ g' n', cells nan nc add row j 0 as (g, n) = .ok (g', n') ∧ fillFrom nan row j (without (nc.map (· - j)) (as.map Prod.snd)) g g' ∧
      n'.row = n.row ++ (nameOf (nc.map (· - j)) (as.map Prod.snd)).toList ∧ n'.text = n.text ++ (if add then without (nc.map (· - j)) (as.map Prod.fst) else []) := by
  intro as
  induction as with
  | nil =>
    intro j g n hg _ _ _ _ _ hk
    cases nc with
    | some k => have := hk k rfl; simp at this; omega
    | none => exact ⟨g, n, rfl, ⟨hg, rfl, fun i j' => by rw [if_neg (by simp [without])]⟩, by simp [nameOf], by simp [without]⟩
  | cons x as ih =>
    intro j g n hg hr hr2 hw hl hp hk
    obtain ⟨c, a⟩ := x
    by_cases e : nc = some j
    · subst e
      simp only [Option.map_some, Nat.sub_self, List.map_cons, without, List.eraseIdx_cons_zero] at hp ⊢
      simp only [Option.isSome_some, if_true, List.length_cons] at hl
      obtain ⟨g', n', e1, f1, r1, t1⟩ := cells_after nan (some j) add row as (j + 1) 1 g (n.add a 'r').1 hg hr hr2 hw (by omega) (by omega)
        (fun x hx => hp x.2 (List.mem_map_of_mem hx)) (fun k h => by cases h; omega)
      refine ⟨g', n', by rw [cells, if_pos rfl]; exact e1, by simpa using f1, ?_, ?_⟩
      · rw [r1]; cases a <;> simp [Names.add, nameOf]
      · rw [t1]; cases a <;> simp [Names.add]
    · have hk' : ∀ k, nc = some k → j + 1 ≤ k ∧ k < j + 1 + as.length := by
        intro k h
        have := hk k h
        have hne : k ≠ j := fun e' => e (by rw [h, e'])
        simp at this
        omega
      have hcons : ∀ {α : Type} (y : α) (ys : List α), without (nc.map (· - j)) (y :: ys) = y :: without (nc.map (· - (j + 1))) ys := by
        intro α y ys
        cases nc with
        | none => simp [without]
        | some k =>
          have : k - j = (k - (j + 1)) + 1 := by have := hk' k rfl; omega
          simp [without, this]
      have hname : nameOf (nc.map (· - j)) (a :: as.map Prod.snd) = nameOf (nc.map (· - (j + 1))) (as.map Prod.snd) := by
        cases nc with
        | none => simp [nameOf]
        | some k =>
          have : k - j = (k - (j + 1)) + 1 := by have := hk' k rfl; omega
          simp [nameOf, this]
      simp only [List.map_cons] at hp ⊢
      rw [hcons] at hp
      simp only [hcons]
      rw [hname]
      simp only [List.length_cons] at hl
      have hj : j < g.size.2 := by
        cases nc with
        | none => simp at hl; omega
        | some k => have := hk' k rfl; simp at hl; omega
      have hset := C10_text_set g hg nan row (j - 0) (some (a.getD nan)) hr2 (by omega)
      rw [if_pos ⟨hr, by omega⟩] at hset
      obtain ⟨g1, e1, w1, s1, get1⟩ := hset
      obtain ⟨g', n', e2, ⟨w2, s2, get2⟩, r2, t2⟩ := ih (j + 1) g1 (if add then (n.add (some c) 't').1 else n) w1 (by rw [s1]; exact hr) hr2 (by rw [s1]; exact hw) (by rw [s1]; omega) (fun x hx => hp x (by simp [hx])) hk'
      refine ⟨g', n', ?_, ⟨w2, s2.trans s1, ?_⟩, ?_, ?_⟩
      · rw [cells, if_neg e, printf_plain _ (hp a (by simp))]
        simp only [Res.bind, e1]
        exact e2
      · intro i j'
        rw [get2 i j', get1 i j']
        simp only [List.length_cons, Nat.sub_zero]
        generalize without (nc.map (· - (j + 1))) (as.map Prod.snd) = xs
        by_cases hi : i = row
        · by_cases hj : j' = j
          · subst hj
            rw [if_neg (by omega), if_pos ⟨hi, rfl⟩, if_pos (by omega)]
            simp
          · by_cases hj2 : j + 1 ≤ j' ∧ j' < j + 1 + xs.length
            · rw [if_pos ⟨hi, hj2⟩, if_pos (by omega)]
              have : j' - j = (j' - (j + 1)) + 1 := by omega
              rw [this, List.getElem?_cons_succ]
            · rw [if_neg (by omega), if_neg (by omega), if_neg (by omega)]
        · rw [if_neg (by omega), if_neg (by omega), if_neg (by omega)]
      · rw [r2]; cases add <;> simp [Names.add]
      · rw [t2]; cases add <;> simp [Names.add]

/-- What there is after some rows, if there is a column for the text. -/
structure Inv (name : Option CStr) (nan : CStr) (cols : List CStr) (rows : List (List (Option CStr))) (s : State) : Prop where
  nc : (if s.first then findCol name cols else s.nc) = findCol name cols
  wf : s.grid.WF
  size : s.grid.size = (rows.length, if rows = [] then 0 else (without (findCol name cols) cols).length)
  get : ∀ i j, s.grid.get i j = (rows[i]?).bind fun r => ((without (findCol name cols) r)[j]?).map (·.getD nan)
  text : s.names.text = if rows = [] then [] else without (findCol name cols) cols
  row : s.names.row = rows.filterMap (nameOf (findCol name cols))

theorem step (name : Option CStr) (nan : CStr) (cols : List CStr) (hw : without (findCol name cols) cols ≠ []) (hc : cols.length < 2 ^ 31) (rows : List (List (Option CStr))) (s : State)
    (inv : Inv name nan cols rows s) (argv : List (Option CStr)) (hl : argv.length = cols.length) (hr : rows.length < 2 ^ 31 - 1)
    (hp : ∀ x ∈ without (findCol name cols) argv, Plain (x.getD nan)) : ∃ s', dbToChars name nan cols s argv = .ok s' ∧ Inv name nan cols (rows ++ [argv]) s' := by
  have hk := findCol_lt name cols
  have hlen := without_length (findCol name cols) cols hk
  have hlen2 : (without (findCol name cols) argv).length = (without (findCol name cols) cols).length := by
    rw [without_length _ argv (fun k h => by rw [hl]; exact hk k h), hl, hlen]
  have hpos : 0 < (without (findCol name cols) cols).length := List.length_pos_iff.2 hw
  obtain ⟨inc, iwf, isize, iget, itext, irow⟩ := inv
  have e0 : argv.length - (if (findCol name cols).isSome then 1 else 0) = (without (findCol name cols) cols).length := by rw [hlen, hl]
  have hnarrow : ¬ (s.grid.size.1 < s.grid.size.1 + 1 ∧ 0 < (without (findCol name cols) cols).length ∧ (without (findCol name cols) cols).length < s.grid.size.2) := by
    rw [isize]; rintro ⟨_, _, h⟩
    simp only at h
    split at h <;> omega
  obtain ⟨g1, a1, w1, _, a2⟩ := C09_text_alloc s.grid iwf (s.grid.size.1 + 1) (without (findCol name cols) cols).length hnarrow
  obtain ⟨sz1, get1⟩ := a2 (by constructor <;> intro h <;> omega)
  have hsz : s.grid.size.1 = rows.length := by rw [isize]
  have hmap1 : (cols.zip argv).map Prod.fst = cols := List.map_fst_zip (by omega)
  have hmap2 : (cols.zip argv).map Prod.snd = argv := List.map_snd_zip (by omega)
  have hz : (cols.zip argv).length = cols.length := by simp [hl]
  have hnc : (findCol name cols).map (· - 0) = findCol name cols := by cases findCol name cols <;> simp
  obtain ⟨g', n', e2, ⟨w2, s2, get2⟩, r2, t2⟩ := cells_before nan (findCol name cols) (s.names.text.length == 0) rows.length (cols.zip argv) 0 g1 s.names w1 (by rw [sz1]; simp only; omega) hr
    (by rw [sz1]; simp only; rw [hlen]; omega) (by rw [sz1, hz]; simp only; rw [hlen]; omega) (by rw [hmap2, hnc]; exact hp) (fun k h => by rw [hz]; exact ⟨by omega, by have := hk k h; omega⟩)
  rw [hmap2, hnc] at r2 get2
  rw [hmap1, hnc] at t2
  refine ⟨⟨false, findCol name cols, g', n'⟩, ?_, ⟨rfl, w2, ?_, ?_, ?_, ?_⟩⟩
  · unfold dbToChars
    rw [hsz] at a1
    simp only [inc, e0, hsz, a1, Res.bind, e2]
  · rw [s2, sz1, hsz]; simp
  · intro i j
    simp only
    rw [get2 i j, get1 i j, hlen2]
    simp only [Nat.zero_le, true_and, Nat.zero_add, Nat.sub_zero]
    rcases Nat.lt_trichotomy i rows.length with h | h | h
    · rw [if_neg (by omega), List.getElem?_append_left h]
      rw [iget i j, isize]
      have hne : rows ≠ [] := by rintro rfl; simp at h
      simp only [if_neg hne, List.getElem?_eq_getElem h, Option.bind_some]
      by_cases hj : j < (without (findCol name cols) cols).length
      · rw [if_pos ⟨by omega, hj⟩, if_pos ⟨h, hj⟩]
        have : (s.grid.get i j).isSome := by
          have hgw := iwf
          unfold Grid.WF at hgw
          unfold Grid.get
          cases ht : s.grid.text with
          | none => rw [ht] at hgw; simp only at hgw; rw [hgw] at hsz; simp at hsz; exact absurd hsz.symm (by simpa using hne)
          | some t =>
            rw [ht] at hgw
            simp only at hgw
            have hi : i < t.length := by rw [hgw.2.2.1]; omega
            have hjr := (hgw.2.2.2 t[i] (List.getElem_mem hi)).1
            rw [isize] at hjr
            simp only [if_neg hne] at hjr
            simp [List.getElem?_eq_getElem hi, List.getElem?_eq_getElem (by omega : j < t[i].length)]
        rw [iget i j, List.getElem?_eq_getElem h] at this
        simp only [Option.bind_some] at this
        obtain ⟨v, hv⟩ := Option.isSome_iff_exists.1 this
        rw [hv]; rfl
      · rw [if_neg (by omega)]
        have hnone : s.grid.get i j = none := by
          have hgw := iwf
          unfold Grid.WF at hgw
          unfold Grid.get
          cases ht : s.grid.text with
          | none => rfl
          | some t =>
            rw [ht] at hgw
            simp only at hgw
            have hi : i < t.length := by rw [hgw.2.2.1]; omega
            have hjr := (hgw.2.2.2 t[i] (List.getElem_mem hi)).1
            rw [isize] at hjr
            simp only [if_neg hne] at hjr
            simp [List.getElem?_eq_getElem hi, List.getElem?_eq_none (by omega : t[i].length ≤ j)]
        rw [iget i j, List.getElem?_eq_getElem h] at hnone
        simpa using hnone.symm
    · subst h
      by_cases hj : j < (without (findCol name cols) cols).length
      · rw [if_pos ⟨rfl, hj⟩]; simp
      · rw [if_neg (by omega), if_neg (by omega)]
        simp [List.getElem?_eq_none (by omega : (without (findCol name cols) argv).length ≤ j)]
    · rw [if_neg (by omega), if_neg (by omega), List.getElem?_eq_none (by simp; omega)]
      rfl
  · simp only
    rw [t2, itext]
    by_cases hne : rows = []
    · simp [hne]
    · simp [if_neg hne, hw]
  · simp only
    rw [r2, irow]
    cases hn : nameOf (findCol name cols) argv <;> simp [hn]

theorem run_spec (name : Option CStr) (nan : CStr) (cols : List CStr) (hw : without (findCol name cols) cols ≠ []) (hc : cols.length < 2 ^ 31) : ∀ (rs rows : List (List (Option CStr))) (s : State),
    Inv name nan cols rows s → (∀ r ∈ rs, r.length = cols.length) → (∀ r ∈ rs, ∀ x ∈ without (findCol name cols) r, Plain (x.getD nan)) → rows.length + rs.length < 2 ^ 31 →
    ∃ s', run name nan cols s rs = .ok s' ∧ Inv name nan cols (rows ++ rs) s' := by
  intro rs
  induction rs with
  | nil => intro rows s inv _ _ _; exact ⟨s, rfl, by simpa using inv⟩
  | cons r rs ih =>
    intro rows s inv hl hp hr
    simp only [List.length_cons] at hr
    obtain ⟨s1, e1, i1⟩ := step name nan cols hw hc rows s inv r (hl r (by simp)) (by omega) (hp r (by simp))
    obtain ⟨s2, e2, i2⟩ := ih _ s1 i1 (fun x hx => hl x (by simp [hx])) (fun x hx => hp x (by simp [hx])) (by simp; omega)
    exact ⟨s2, by rw [run, e1]; exact e2, by simpa using i2⟩

theorem inv_start (name : Option CStr) (nan : CStr) (cols : List CStr) : Inv name nan cols [] {} :=
  ⟨rfl, rfl, rfl, fun i j => by simp [Grid.get], rfl, rfl⟩

/-! ## The theorems -/

/-- **C105.** For every answer of fewer than 2^31 - 1 rows, with a column that is not that with the names, whose strings have no percent sign: the text has a row for each row, and a column for each column that is not that with the names; each cell is the database's, or the NaN string for a NULL; the text's names are the columns', and the row names the names there are. Without rows the result is NULL. -/
theorem C105_contents (name : Option CStr) (nan : CStr) (a : Answer) (ok : a.Ok) (he : a.err = false) (hw : without (findCol name a.cols) a.cols ≠ []) (hc : a.cols.length < 2 ^ 31)
    (hn : a.rows.length < 2 ^ 31 - 1) (hp : AllPlain name nan a) :
    (a.rows = [] → queryToText name nan a = .ok none) ∧
    (a.rows ≠ [] → ∃ d, queryToText name nan a = .ok (some d) ∧ d.error = false ∧ d.grid.WF ∧ d.grid.size = (a.rows.length, (without (findCol name a.cols) a.cols).length) ∧
      (∀ i j, d.grid.get i j = (a.rows[i]?).bind fun r => ((without (findCol name a.cols) r)[j]?).map (·.getD nan)) ∧
      d.names.text = without (findCol name a.cols) a.cols ∧ d.names.row = a.rows.filterMap (nameOf (findCol name a.cols))) := by
  constructor
  · intro h; rw [queryToText, h, he]; rfl
  · intro h
    obtain ⟨s, e, inv⟩ := run_spec name nan a.cols hw hc a.rows [] {} (inv_start name nan a.cols) ok hp (by simp; omega)
    simp only [List.nil_append] at inv
    have hs := inv.size
    have ht := inv.text
    rw [if_neg h] at hs ht
    refine ⟨⟨s.grid, s.names, false⟩, ?_, rfl, inv.wf, hs, inv.get, ht, inv.row⟩
    rw [queryToText, e]
    have : s.grid.size.1 ≠ 0 := by rw [hs]; simpa using h
    simp [Res.bind, he, this]

/-- **C105 (percent signs) fails**: the strings are used as formats. A cell with a percent sign that is not followed by another is undefined behaviour, in any row, however good the rows before are; and two percent signs become one. -/
theorem C105_format_refuted (name : Option CStr) (nan : CStr) (cols : List CStr) (hw : without (findCol name cols) cols ≠ []) (hc : cols.length < 2 ^ 31) (rows rest : List (List (Option CStr)))
    (ok : ∀ r ∈ rows, r.length = cols.length) (hp : ∀ r ∈ rows, ∀ x ∈ without (findCol name cols) r, Plain (x.getD nan)) (hn : rows.length < 2 ^ 31 - 1)
    (x : CStr) (hx : printf x = .ub) (as : List (Option CStr)) (hl : as.length + 1 = cols.length) (h0 : findCol name cols ≠ some 0) :
    queryToText name nan ⟨cols, rows ++ (some x :: as) :: rest, false⟩ = .ub := by
  obtain ⟨s, e, inv⟩ := run_spec name nan cols hw hc rows [] {} (inv_start name nan cols) ok hp (by simp; omega)
  simp only [List.nil_append] at inv
  have hrun : ∀ (rs rs' : List (List (Option CStr))) (s0 s1 : State), run name nan cols s0 rs = .ok s1 → run name nan cols s0 (rs ++ rs') = run name nan cols s1 rs' := by
    intro rs
    induction rs with
    | nil => intro rs' s0 s1 h; simp only [run, Res.ok.injEq] at h; rw [h]; rfl
    | cons r rs ih =>
      intro rs' s0 s1 h
      rw [run] at h
      rw [List.cons_append, run]
      cases hd : dbToChars name nan cols s0 r with
      | ub => rw [hd] at h; simp [Res.bind] at h
      | ok s' => rw [hd] at h; exact ih rs' s' s1 h
  have hub : dbToChars name nan cols s (some x :: as) = .ub := by
    unfold dbToChars
    simp only [inv.nc]
    cases Text.alloc s.grid (s.grid.size.1 + 1) ((some x :: as).length - if (findCol name cols).isSome then 1 else 0) with
    | ub => rfl
    | ok g =>
      cases cols with
      | nil => simp at hl
      | cons c cs => simp [Res.bind, cells, h0, hx]
  rw [queryToText]
  simp only
  rw [hrun rows _ {} s e, run, hub]
  rfl

/-- Strings that are undefined as formats: `%s` alone, `100%`; and two percent signs are printed as one. -/
theorem C105_percent_refuted : printf (str "%s") = .ub ∧ printf (str "100%") = .ub ∧ printf (str "100%%") = .ok (str "100%") := by decide +kernel

/-- **C105 (only names) fails**: if the only column is that with the names, the result is NULL, as if there were no rows, and the names are lost. -/
theorem C105_only_names_refuted (c nan : CStr) (rows : List (List (Option CStr))) (h : ∀ r ∈ rows, ∃ y, r = [y]) : queryToText (some c) nan ⟨[c], rows, false⟩ = .ok none := by
  have hf : findCol (some c) [c] = some 0 := by simp [findCol, List.findIdx?_cons, caseEq_refl]
  have key : ∀ (rows : List (List (Option CStr))) (s : State), (∀ r ∈ rows, ∃ y, r = [y]) → s.grid = {} → (if s.first then findCol (some c) [c] else s.nc) = some 0 →
      ∃ s', run (some c) nan [c] s rows = .ok s' ∧ s'.grid = {} := by
    intro rows
    induction rows with
    | nil => intro s _ h _; exact ⟨s, rfl, h⟩
    | cons r rs ih =>
      intro s h hg hnc
      obtain ⟨y, rfl⟩ := h r (by simp)
      obtain ⟨s', e, hs⟩ := ih ⟨false, some 0, {}, (s.names.add y 'r').1⟩ (fun r hr => h r (by simp [hr])) rfl rfl
      refine ⟨s', ?_, hs⟩
      rw [run]
      have : dbToChars (some c) nan [c] s [y] = .ok ⟨false, some 0, {}, (s.names.add y 'r').1⟩ := by
        unfold dbToChars
        simp only [hnc, hg]
        simp [Text.alloc, Res.bind, cells]
      rw [this]
      exact e
  obtain ⟨s, e, hs⟩ := key rows {} h rfl hf
  rw [queryToText]
  simp only
  rw [e]
  simp [Res.bind, hs]

/-- Two columns and a name: the hypotheses hold. -/
example : without (findCol (some (str "row_names")) [str "a", str "Row_Names", str "b"]) [str "a", str "Row_Names", str "b"] = [str "a", str "b"] ∧
    AllPlain (some (str "row_names")) (str "NaN") ⟨[str "a", str "Row_Names", str "b"], [[some (str "1"), some (str "50%"), none]], false⟩ := by
  have hf : findCol (some (str "row_names")) [str "a", str "Row_Names", str "b"] = some 1 := by decide +kernel
  constructor
  · rw [hf]; rfl
  · intro r hr x hx
    simp only [List.mem_singleton] at hr
    subst hr
    simp only [hf, without] at hx
    simp at hx
    rcases hx with rfl | rfl <;> (unfold Plain; decide +kernel)

end Apop.Db.ToText
