import Verif.Conv.FillProps
import Verif.Out.Num
import Mathlib.Data.Int.Log
import Mathlib.Data.List.Nodup

/-! # C206: a crosstab written to the database and read back

`apop_crosstab_to_db` followed by `apop_db_to_crosstab` on the same table and columns (apop_conversions.m4.c:111-225), for data sets whose names are all given (made-up names: C38). The statements are written as text, and a small reader of SQL literals says what SQLite makes of them. A number is rational, NaN or infinite, with exact arithmetic. -/

namespace Apop.CrossTrip
open Apop.Conv

/-! ## The model -/

/-- A double. -/
inductive Val where
  | fin (q : ℚ)
  | nan
  | inf (neg : Bool)
deriving DecidableEq

/-- The number that `%g` prints: six significant digits, halves to the even one. -/
def round6 (q : ℚ) : ℚ :=
  if q = 0 then 0
  else (if q < 0 then -1 else 1) * (Out.roundEven (|q| / (10 : ℚ) ^ (Int.log 10 |q| - 5)) : ℚ) * (10 : ℚ) ^ (Int.log 10 |q| - 5)

/-- The last part of an insertion, apop_conversions.m4.c:210-213, 221-222: a number as a literal, `0/0`, `inf`, or a text in quotes. -/
inductive Last where
  | num (q : ℚ)
  | zeroByZero
  | inf
  | quoted (s : CStr)

/-- An insertion: the text from the first quote to before the last part, and the last part. -/
structure Stmt where
  head : CStr
  last : Last

/-- The text `'r', 'c', `. -/
def head (r c : CStr) : CStr := 39 :: r ++ [39, 44, 32, 39] ++ c ++ [39, 44, 32]

/-- The insertion for a number, apop_conversions.m4.c:209-213: NaN as `0/0`, all others by `%g`. -/
def lastOf : Val → Last
  | .fin q => .num (round6 q)
  | .nan => .zeroByZero
  | .inf _ => .inf

/-- The loops over the matrix, apop_conversions.m4.c:204-215, with all names given. -/
def matStmts (rn cn : List CStr) (M : List (List Val)) : List Stmt :=
  (rn.zip M).flatMap fun p => (cn.zip p.2).map fun q => ⟨head p.1 q.1, lastOf q.2⟩

/-- The loops over the text, apop_conversions.m4.c:216-223. -/
def textStmts (rn tn : List CStr) (T : List (List CStr)) : List Stmt :=
  (rn.zip T).flatMap fun p => (tn.zip p.2).map fun q => ⟨head p.1 q.1, .quoted q.2⟩

/-- `apop_crosstab_to_db`, apop_conversions.m4.c:192-225: the insertions, in order. -/
def toDb (rn cn tn : List CStr) (M : List (List Val)) (T : List (List CStr)) : List Stmt := matStmts rn cn M ++ textStmts rn tn T

/-- SQL: a literal after its opening quote, up to a quote that isn't doubled, and what comes after. -/
def readBody : CStr → Option (CStr × CStr)
  | [] => none
  | [c] => if c = 39 then some ([], []) else none
  | c :: d :: s =>
    if c = 39 then
      if d = 39 then (readBody s).map fun p => (39 :: p.1, p.2) else some ([], d :: s)
    else (readBody (d :: s)).map fun p => (c :: p.1, p.2)

/-- SQL: a literal. -/
def readLit (s : CStr) : Option (CStr × CStr) := if s.head? = some 39 then readBody s.tail else none

/-- SQL: the comma and the blank after a literal. -/
def comma (s : CStr) : Option CStr := if s.take 2 = [44, 32] then some (s.drop 2) else none

/-- What a table cell holds. -/
inductive Stored where
  | num (q : ℚ)
  | null
  | text (s : CStr)
deriving DecidableEq

/-- SQL: the value of the last part; `0/0` is NULL, `inf` is the name of no column: an error. That text which looks like a number becomes one is left out: it reads the same. -/
def storedOf : Last → Option Stored
  | .num q => some (.num q)
  | .zeroByZero => some .null
  | .inf => none
  | .quoted s => match readLit (39 :: s ++ [39]) with
    | some (v, []) => some (.text v)
    | _ => none

/-- SQLite on an insertion: the record inserted, none if the statement is an error. Texts that end in another way than the one written here count as errors. -/
def exec (st : Stmt) : Option (CStr × CStr × Stored) := do
  let (r, s) ← readLit st.head
  let s ← comma s
  let (c, s) ← readLit s
  let s ← comma s
  if s = [] then
    let v ← storedOf st.last
    pure (r, c, v)
  else none

/-- The table after the insertions: those that are errors leave nothing (`apop_crosstab_to_db` looks at no result). -/
def table (l : List Stmt) : List (CStr × CStr × Stored) := l.filterMap exec

/-- The answer of `apop_query_to_text`: NULL for no rows, a data set with an error, or rows. -/
inductive Ans (α : Type) where
  | null
  | err
  | rows (l : List α)

/-- An answer without error. -/
def answer {α : Type} (l : List α) : Ans α := if l.isEmpty then .null else .rows l

/-- How SQLite prints a number, `apop_opts.nan_string`, and `atof`. -/
structure Env where
  show_ : ℚ → CStr
  nanStr : CStr
  atof : CStr → Val

/-- The text of a table cell, by `apop_query_to_text`. -/
def cellText (E : Env) : Stored → CStr
  | .num q => E.show_ q
  | .null => E.nanStr
  | .text s => s

/-- The data set that `apop_db_to_crosstab` returns. -/
structure Out where
  row : List CStr
  col : List CStr
  matrix : Option (List (List Val))
  error : Option Char
deriving DecidableEq

/-- The cells and the end, apop_conversions.m4.c:151-165. -/
def fill (E : Env) (fuel : Nat) (p : Option CStr) (recs : List (CStr × CStr × CStr)) (R C : List CStr) : Option (Res (Option Out × Option CStr)) :=
  match crosstab (.fin 0) E.atof fuel R C recs with
  | none => none
  | some .ub => some .ub
  | some (.ok (m, fine)) => some (.ok (some ⟨R, C, some m, if fine then none else some 'n'⟩, p))

/-- `apop_db_to_crosstab`, apop_conversions.m4.c:111-166, on the answers to its three queries. `p` is `apop_opts.db_name_column`; the second result is its value afterwards. -/
def fromDb (E : Env) (fuel : Nat) (p : Option CStr) (recs : Ans (CStr × CStr × CStr)) (R C : Ans CStr) : Option (Res (Option Out × Option CStr)) :=
  match recs, R, C with
  | .null, _, _ => some (.ok (none, none))
  | .err, _, _ => some (.ok (some ⟨[], [], none, none⟩, p))
  | .rows _, .null, _ => some (.ok (some ⟨[], [], none, some 'q'⟩, p))
  | .rows _, .err, _ => some (.ok (some ⟨[], [], none, some 'q'⟩, p))
  | .rows _, .rows r, .null => some (.ok (some ⟨r, [], none, some 'q'⟩, p))
  | .rows _, .rows r, .err => some (.ok (some ⟨r, [], none, some 'q'⟩, p))
  | .rows l, .rows r, .rows c => fill E fuel p l r c

/-- Writing, then reading: `R` and `C` are what `select distinct … order by` gives for the two columns. -/
def trip (E : Env) (fuel : Nat) (p : Option CStr) (rn cn tn : List CStr) (M : List (List Val)) (T : List (List CStr)) (R C : List CStr) :
    Option (Res (Option Out × Option CStr)) :=
  fromDb E fuel p (answer ((table (toDb rn cn tn M T)).map fun x => (x.1, x.2.1, cellText E x.2.2))) (answer R) (answer C)

/-! ## Specification -/

/-- What a cell of the matrix reads as afterwards: six digits of a number, NaN as the text for NaN reads. -/
def back (E : Env) : Val → Val
  | .fin q => .fin (round6 q)
  | .nan => E.atof E.nanStr
  | .inf b => .inf b

/-- A matrix or a grid of texts with so many rows and columns. -/
def Shape {α : Type} (M : List (List α)) (n m : Nat) : Prop := M.length = n ∧ ∀ r ∈ M, r.length = m

/-- A cell. -/
def cell {α : Type} (M : List (List α)) (i j : Nat) : Option α := M[i]?.bind (·[j]?)

/-- No quote. -/
def Plain (s : CStr) : Prop := (39 : UInt8) ∉ s

/-- The distinct values of a column, in some order. -/
def Distinct (R l : List CStr) : Prop := R.Nodup ∧ ∀ s, s ∈ R ↔ s ∈ l

/-- `atof` reads what SQLite prints for this number. -/
def Reads (E : Env) : Val → Prop
  | .fin q => E.atof (E.show_ (round6 q)) = .fin (round6 q)
  | .nan => True
  | .inf _ => False

/-! ## SQL literals -/

theorem readBody_plain (s : CStr) (hs : s.head? ≠ some 39) : ∀ r : CStr, Plain r → readBody (r ++ 39 :: s) = some (r, s) := by
  intro r
  induction r with
  | nil =>
    intro _
    cases s with
    | nil => rfl
    | cons d s =>
      have : d ≠ 39 := fun e => hs (by rw [e]; rfl)
      simp [readBody, this]
  | cons c r ih =>
    intro hp
    have hc : c ≠ 39 := fun e => hp (by rw [e]; exact List.mem_cons_self)
    have hr : Plain r := fun h => hp (List.mem_cons_of_mem _ h)
    have ih := ih hr
    have hne : ∃ d t, r ++ 39 :: s = d :: t := by cases r <;> exact ⟨_, _, rfl⟩
    obtain ⟨d, t, e⟩ := hne
    rw [List.cons_append, e, readBody, if_neg hc, ← e, ih]
    rfl

theorem readLit_plain (r s : CStr) (hr : Plain r) (hs : s.head? ≠ some 39) : readLit (39 :: r ++ 39 :: s) = some (r, s) := by
  rw [readLit, if_pos (by simp)]
  exact readBody_plain s hs r hr

theorem exec_plain (r c : CStr) (hr : Plain r) (hc : Plain c) (v : Last) : exec ⟨head r c, v⟩ = (storedOf v).map fun v => (r, c, v) := by
  have h1 : readLit (head r c) = some (r, [44, 32, 39] ++ c ++ [39, 44, 32]) := by
    have := readLit_plain r ([44, 32, 39] ++ c ++ [39, 44, 32]) hr (by simp)
    rw [← this]; simp [head]
  have h2 : comma ([44, 32, 39] ++ c ++ [39, 44, 32]) = some (39 :: c ++ [39, 44, 32]) := by simp [comma]
  have h3 : readLit (39 :: c ++ [39, 44, 32]) = some (c, [44, 32]) := readLit_plain c [44, 32] hc (by simp)
  have h4 : comma [44, 32] = some [] := rfl
  simp only [exec, h1, h2, h3, h4, Option.bind_eq_bind, Option.bind_some, if_true]
  cases storedOf v <;> rfl

theorem storedOf_text (s : CStr) (hs : Plain s) : storedOf (.quoted s) = some (.text s) := by
  have : readLit (39 :: s ++ [39]) = some (s, []) := readLit_plain s [] hs (by simp)
  simp only [storedOf, this]

/-! ## Six digits -/

theorem round6_exact (n k : ℤ) (hn : |n| < 1000000) : round6 ((n : ℚ) * (10 : ℚ) ^ k) = (n : ℚ) * (10 : ℚ) ^ k := by
  by_cases h0 : n = 0
  · simp [h0, round6]
  have hp : (0 : ℚ) < (10 : ℚ) ^ k := zpow_pos (by norm_num) _
  have hn0 : (n : ℚ) ≠ 0 := by exact_mod_cast h0
  set q : ℚ := (n : ℚ) * (10 : ℚ) ^ k with hq
  have hq0 : q ≠ 0 := mul_ne_zero hn0 hp.ne'
  have habs : |q| = ((|n| : ℤ) : ℚ) * (10 : ℚ) ^ k := by rw [hq, abs_mul, abs_of_pos hp, Int.cast_abs]
  have hlt : |q| < (10 : ℚ) ^ (k + 6) := by
    rw [habs, zpow_add₀ (by norm_num), mul_comm]
    apply mul_lt_mul_of_pos_left _ hp
    have : ((|n| : ℤ) : ℚ) < 1000000 := by exact_mod_cast hn
    norm_num; exact_mod_cast this
  have hle : Int.log 10 |q| < k + 6 := (Int.lt_zpow_iff_log_lt (by norm_num) (abs_pos.2 hq0)).1 (by exact_mod_cast hlt)
  set e := Int.log 10 |q| with he
  obtain ⟨d, hd⟩ : ∃ d : ℕ, k - (e - 5) = d := ⟨(k - (e - 5)).toNat, by omega⟩
  have hdiv : |q| / (10 : ℚ) ^ (e - 5) = ((|n| * 10 ^ d : ℤ) : ℚ) := by
    rw [habs, mul_div_assoc, ← zpow_sub₀ (by norm_num), hd]
    push_cast; rfl
  rw [round6, if_neg hq0, ← he, hdiv, Out.roundEven_int, ← hdiv]
  rw [mul_assoc, div_mul_cancel₀ _ (zpow_pos (by norm_num) _ : (0 : ℚ) < _).ne']
  split
  · rename_i h; rw [abs_of_neg h]; ring
  · rename_i h; rw [abs_of_nonneg (not_lt.1 h)]; ring

theorem round6_close (q : ℚ) : |round6 q - q| ≤ |q| / 200000 := by
  by_cases h0 : q = 0
  · simp [h0, round6]
  set e := Int.log 10 |q| with he
  have hp : (0 : ℚ) < (10 : ℚ) ^ (e - 5) := zpow_pos (by norm_num) _
  have hle : (10 : ℚ) ^ e ≤ |q| := by
    have := Int.zpow_log_le_self (b := 10) (r := |q|) (by norm_num) (abs_pos.2 h0)
    rw [← he] at this; exact_mod_cast this
  have hc := Out.roundEven_close (|q| / (10 : ℚ) ^ (e - 5))
  set m : ℚ := (Out.roundEven (|q| / (10 : ℚ) ^ (e - 5)) : ℚ) with hm
  have h5 : (10 : ℚ) ^ (e - 5) ≤ |q| / 100000 := by
    rw [zpow_sub₀ (by norm_num), show ((10 : ℚ) ^ (5 : ℤ)) = 100000 by norm_num]
    gcongr
  have key : |m * (10 : ℚ) ^ (e - 5) - (|q|)| ≤ |q| / 200000 := by
    have : m * (10 : ℚ) ^ (e - 5) - |q| = (m - |q| / (10 : ℚ) ^ (e - 5)) * (10 : ℚ) ^ (e - 5) := by
      rw [sub_mul, div_mul_cancel₀ _ hp.ne']
    rw [this, abs_mul, abs_of_pos hp]
    calc _ ≤ (1 / 2) * (|q| / 100000) := by gcongr
      _ = _ := by ring
  rw [round6, if_neg h0, ← he, ← hm]
  split
  · rename_i h
    rw [abs_of_neg h] at key ⊢
    rw [abs_of_neg h] at hm
    rw [← abs_neg]
    convert key using 2
    ring
  · rename_i h
    have h := not_lt.1 h
    rw [abs_of_nonneg h] at key ⊢
    convert key using 2
    ring

/-! ## The table -/

/-- Both loops at once. -/
def grid {α : Type} (f : α → Last) (rn cn : List CStr) (M : List (List α)) : List Stmt :=
  (rn.zip M).flatMap fun p => (cn.zip p.2).map fun q => ⟨head p.1 q.1, f q.2⟩

theorem mem_zip_get {α β : Type} (l : List α) (m : List β) (a : α) (b : β) : (a, b) ∈ l.zip m ↔ ∃ i : ℕ, l[i]? = some a ∧ m[i]? = some b := by
  rw [List.mem_iff_getElem?]
  simp only [List.getElem?_zip_eq_some]

theorem mem_grid {α : Type} (f : α → Last) (rn cn : List CStr) (M : List (List α)) (hr : ∀ s ∈ rn, Plain s) (hc : ∀ s ∈ cn, Plain s) (r c : CStr) (v : Stored) :
    (r, c, v) ∈ table (grid f rn cn M) ↔ ∃ i j x, rn[i]? = some r ∧ cn[j]? = some c ∧ cell M i j = some x ∧ storedOf (f x) = some v := by
  simp only [table, List.mem_filterMap, grid, List.mem_flatMap, List.mem_map, Prod.exists, cell]
  constructor
  · rintro ⟨st, ⟨a, row, h1, b, x, h2, rfl⟩, h3⟩
    obtain ⟨i, hi, hrow⟩ := (mem_zip_get _ _ _ _).1 h1
    obtain ⟨j, hj, hx⟩ := (mem_zip_get _ _ _ _).1 h2
    rw [exec_plain a b (hr a (List.mem_of_getElem? hi)) (hc b (List.mem_of_getElem? hj))] at h3
    cases hs : storedOf (f x) with
    | none => rw [hs] at h3; cases h3
    | some w =>
      rw [hs] at h3
      simp only [Option.map_some, Option.some.injEq, Prod.mk.injEq] at h3
      obtain ⟨rfl, rfl, rfl⟩ := h3
      exact ⟨i, j, x, hi, hj, by rw [hrow]; exact hx, hs⟩
  · rintro ⟨i, j, x, hi, hj, hx, hs⟩
    cases hrow : M[i]? with
    | none => rw [hrow] at hx; cases hx
    | some row =>
      rw [hrow] at hx
      refine ⟨_, ⟨r, row, (mem_zip_get _ _ _ _).2 ⟨i, hi, hrow⟩, c, x, (mem_zip_get _ _ _ _).2 ⟨j, hj, hx⟩, rfl⟩, ?_⟩
      rw [exec_plain r c (hr r (List.mem_of_getElem? hi)) (hc c (List.mem_of_getElem? hj)), hs]
      rfl

theorem mem_toDb (rn cn tn : List CStr) (M : List (List Val)) (T : List (List CStr)) (hq : ∀ s ∈ rn ++ cn ++ tn, Plain s) (hqT : ∀ r ∈ T, ∀ s ∈ r, Plain s) (r c : CStr) (v : Stored) :
    (r, c, v) ∈ table (toDb rn cn tn M T) ↔
      (∃ i j x, rn[i]? = some r ∧ cn[j]? = some c ∧ cell M i j = some x ∧ storedOf (lastOf x) = some v) ∨
      (∃ i j x, rn[i]? = some r ∧ tn[j]? = some c ∧ cell T i j = some x ∧ v = .text x) := by
  have h1 : ∀ s ∈ rn, Plain s := fun s h => hq s (by simp [h])
  have h2 : ∀ s ∈ cn, Plain s := fun s h => hq s (by simp [h])
  have h3 : ∀ s ∈ tn, Plain s := fun s h => hq s (by simp [h])
  have e : table (toDb rn cn tn M T) = table (grid lastOf rn cn M) ++ table (grid .quoted rn tn T) := List.filterMap_append
  rw [e, List.mem_append, mem_grid _ _ _ _ h1 h2, mem_grid _ _ _ _ h1 h3]
  apply or_congr_right
  constructor
  · rintro ⟨i, j, x, a, b, hx, hs⟩
    have hp : Plain x := by
      unfold cell at hx
      cases hT : T[i]? with
      | none => rw [hT] at hx; cases hx
      | some row => rw [hT] at hx; exact hqT row (List.mem_of_getElem? hT) x (List.mem_of_getElem? hx)
    rw [storedOf_text x hp] at hs
    exact ⟨i, j, x, a, b, hx, (Option.some.inj hs).symm⟩
  · rintro ⟨i, j, x, a, b, hx, rfl⟩
    have hp : Plain x := by
      unfold cell at hx
      cases hT : T[i]? with
      | none => rw [hT] at hx; cases hx
      | some row => rw [hT] at hx; exact hqT row (List.mem_of_getElem? hT) x (List.mem_of_getElem? hx)
    exact ⟨i, j, x, a, b, hx, storedOf_text x hp⟩

theorem cell_some {α : Type} {M : List (List α)} {n m : Nat} (h : Shape M n m) (i j : Nat) (hi : i < n) (hj : j < m) : ∃ x, cell M i j = some x := by
  have hi' : i < M.length := by rw [h.1]; exact hi
  have hl := h.2 _ (List.getElem_mem hi')
  refine ⟨M[i][j], ?_⟩
  simp [cell, List.getElem?_eq_getElem hi']

theorem cell_mem {α : Type} {M : List (List α)} {i j : Nat} {x : α} (h : cell M i j = some x) : ∃ r ∈ M, x ∈ r := by
  unfold cell at h
  cases hT : M[i]? with
  | none => rw [hT] at h; cases h
  | some row => rw [hT] at h; exact ⟨row, List.mem_of_getElem? hT, List.mem_of_getElem? h⟩

theorem find_unique {α : Type} (l : List α) (q : α → Bool) (a : α) (ha : a ∈ l) (hq : q a = true) (hu : ∀ b ∈ l, q b = true → b = a) : l.find? q = some a := by
  cases h : l.find? q with
  | none => exact absurd hq (List.find?_eq_none.1 h a ha)
  | some b => rw [hu b (List.mem_of_find?_eq_some h) (List.find?_some h)]

theorem nodup_get {α : Type} {l : List α} (h : l.Nodup) {i j : Nat} {a : α} (hi : l[i]? = some a) (hj : l[j]? = some a) : i = j := by
  obtain ⟨hi', e⟩ := List.getElem?_eq_some_iff.1 hi
  obtain ⟨hj', e'⟩ := List.getElem?_eq_some_iff.1 hj
  exact (List.Nodup.getElem_inj_iff h).1 (e.trans e'.symm)

/-! ## The theorems -/

/-- **C206**: the distinct names of the rows and columns, in whatever order SQLite sorts them, are the names of the result; the cell under two names is the cell that was written under them, a number to six digits; a text reads as `atof` reads it. `db_name_column` is as before, and there is no error. -/
theorem C206_trip (E : Env) (p : Option CStr) (rn cn tn : List CStr) (M : List (List Val)) (T : List (List CStr))
    (hM : Shape M rn.length cn.length) (hT : Shape T rn.length tn.length) (hrn : rn.Nodup) (hcn : (cn ++ tn).Nodup)
    (hq : ∀ s ∈ rn ++ cn ++ tn, Plain s) (hqT : ∀ r ∈ T, ∀ s ∈ r, Plain s) (hE : ∀ r ∈ M, ∀ x ∈ r, Reads E x)
    (hne : rn ≠ []) (hce : cn ++ tn ≠ []) (R C : List CStr)
    (hR : Distinct R ((table (toDb rn cn tn M T)).map (·.1))) (hC : Distinct C ((table (toDb rn cn tn M T)).map (·.2.1))) :
    (∀ s, s ∈ R ↔ s ∈ rn) ∧ (∀ s, s ∈ C ↔ s ∈ cn ++ tn) ∧
    ∃ fuel0, ∀ fuel, fuel0 ≤ fuel → ∃ m, trip E fuel p rn cn tn M T R C = some (.ok (some ⟨R, C, some m, none⟩, p)) ∧
      Shape m rn.length (cn.length + tn.length) ∧
      (∀ i j i' j' r c, rn[i]? = some r → cn[j]? = some c → R[i']? = some r → C[j']? = some c → ∃ x, cell M i j = some x ∧ cell m i' j' = some (back E x)) ∧
      (∀ i j i' j' r c, rn[i]? = some r → tn[j]? = some c → R[i']? = some r → C[j']? = some c → ∃ s, cell T i j = some s ∧ cell m i' j' = some (E.atof s)) := by
  have hmem := mem_toDb rn cn tn M T hq hqT
  set tab := table (toDb rn cn tn M T) with htab
  have hst : ∀ x, Reads E x → ∃ v, storedOf (lastOf x) = some v ∧ E.atof (cellText E v) = back E x := by
    intro x hx
    cases x with
    | fin q => exact ⟨_, rfl, hx⟩
    | nan => exact ⟨_, rfl, rfl⟩
    | inf b => exact hx.elim
  have hRd : ∀ i j x, cell M i j = some x → Reads E x := by
    intro i j x h
    obtain ⟨r, hr, hx⟩ := cell_mem h
    exact hE r hr x hx
  have hcm : ∀ (i j : Nat) (r c : CStr), rn[i]? = some r → cn[j]? = some c → ∃ x v, cell M i j = some x ∧ storedOf (lastOf x) = some v ∧ E.atof (cellText E v) = back E x ∧ (r, c, v) ∈ tab := by
    intro i j r c hi hj
    obtain ⟨x, hx⟩ := cell_some hM i j (List.getElem?_eq_some_iff.1 hi).1 (List.getElem?_eq_some_iff.1 hj).1
    obtain ⟨v, hv, hb⟩ := hst x (hRd i j x hx)
    exact ⟨x, v, hx, hv, hb, (hmem r c v).2 (.inl ⟨i, j, x, hi, hj, hx, hv⟩)⟩
  have htm : ∀ (i j : Nat) (r c : CStr), rn[i]? = some r → tn[j]? = some c → ∃ s, cell T i j = some s ∧ (r, c, .text s) ∈ tab := by
    intro i j r c hi hj
    obtain ⟨s, hs⟩ := cell_some hT i j (List.getElem?_eq_some_iff.1 hi).1 (List.getElem?_eq_some_iff.1 hj).1
    exact ⟨s, hs, (hmem r c _).2 (.inr ⟨i, j, s, hi, hj, hs, rfl⟩)⟩
  have hany : ∀ r ∈ rn, ∀ c ∈ cn ++ tn, ∃ v, (r, c, v) ∈ tab := by
    intro r hr c hc
    obtain ⟨i, hi⟩ := List.mem_iff_getElem?.1 hr
    rcases List.mem_append.1 hc with h | h
    · obtain ⟨j, hj⟩ := List.mem_iff_getElem?.1 h
      obtain ⟨x, v, -, -, -, h⟩ := hcm i j r c hi hj
      exact ⟨v, h⟩
    · obtain ⟨j, hj⟩ := List.mem_iff_getElem?.1 h
      obtain ⟨s, -, h⟩ := htm i j r c hi hj
      exact ⟨_, h⟩
  have hkeys : ∀ r c v, (r, c, v) ∈ tab → r ∈ rn ∧ c ∈ cn ++ tn := by
    intro r c v h
    rcases (hmem r c v).1 h with ⟨i, j, x, hi, hj, -, -⟩ | ⟨i, j, x, hi, hj, -, -⟩
    · exact ⟨List.mem_of_getElem? hi, List.mem_append_left _ (List.mem_of_getElem? hj)⟩
    · exact ⟨List.mem_of_getElem? hi, List.mem_append_right _ (List.mem_of_getElem? hj)⟩
  obtain ⟨r0, hr0⟩ := List.exists_mem_of_ne_nil _ hne
  obtain ⟨c0, hc0⟩ := List.exists_mem_of_ne_nil _ hce
  have hRm : ∀ s, s ∈ R ↔ s ∈ rn := by
    intro s
    rw [hR.2, List.mem_map]
    constructor
    · rintro ⟨⟨r, c, v⟩, h, rfl⟩; exact (hkeys _ _ _ h).1
    · intro h
      obtain ⟨v, hv⟩ := hany s h c0 hc0
      exact ⟨_, hv, rfl⟩
  have hCm : ∀ s, s ∈ C ↔ s ∈ cn ++ tn := by
    intro s
    rw [hC.2, List.mem_map]
    constructor
    · rintro ⟨⟨r, c, v⟩, h, rfl⟩; exact (hkeys _ _ _ h).2
    · intro h
      obtain ⟨v, hv⟩ := hany r0 hr0 s h
      exact ⟨_, hv, rfl⟩
  have hRl : R.length = rn.length := ((List.perm_ext_iff_of_nodup hR.1 hrn).2 hRm).length_eq
  have hCl : C.length = cn.length + tn.length := by
    rw [((List.perm_ext_iff_of_nodup hC.1 hcn).2 hCm).length_eq, List.length_append]
  have huniq : ∀ r c v w, (r, c, v) ∈ tab → (r, c, w) ∈ tab → v = w := by
    intro r c v w h h'
    have hd := List.nodup_append.1 hcn
    rcases (hmem r c v).1 h with ⟨i, j, x, hi, hj, hx, hv⟩ | ⟨i, j, x, hi, hj, hx, hv⟩ <;>
      rcases (hmem r c w).1 h' with ⟨i', j', x', hi', hj', hx', hw⟩ | ⟨i', j', x', hi', hj', hx', hw⟩
    · have e1 := nodup_get hrn hi hi'
      have e2 := nodup_get hd.1 hj hj'
      subst e1 e2
      rw [hx] at hx'; cases hx'
      rw [hv] at hw; exact Option.some.inj hw
    · exact absurd rfl (hd.2.2 c (List.mem_of_getElem? hj) c (List.mem_of_getElem? hj'))
    · exact absurd rfl (hd.2.2 c (List.mem_of_getElem? hj') c (List.mem_of_getElem? hj))
    · have e1 := nodup_get hrn hi hi'
      have e2 := nodup_get hd.2.1 hj hj'
      subst e1 e2
      rw [hx] at hx'; cases hx'
      rw [hv, hw]
  refine ⟨hRm, hCm, ?_⟩
  set recs := tab.map fun x => (x.1, x.2.1, cellText E x.2.2) with hrecs
  have hin : ∀ x ∈ recs, x.1 ∈ R ∧ x.2.1 ∈ C := by
    intro x hx
    obtain ⟨⟨r, c, v⟩, h, rfl⟩ := List.mem_map.1 hx
    exact ⟨(hRm r).2 (hkeys r c v h).1, (hCm c).2 (hkeys r c v h).2⟩
  obtain ⟨f0, hf⟩ := C37_crosstab (.fin 0) E.atof R C hR.1 hC.1 recs hin
  refine ⟨f0, fun fuel hfu => ?_⟩
  obtain ⟨m, hm, hml, hmr, hcell⟩ := hf fuel hfu
  have hval : ∀ (r c : CStr) (v : Stored), (r, c, v) ∈ tab → ∀ i' j', R[i']? = some r → C[j']? = some c → cell m i' j' = some (E.atof (cellText E v)) := by
    intro r c v h i' j' hi hj
    have hfind : recs.reverse.find? (fun x => x.1 == r && x.2.1 == c) = some (r, c, cellText E v) := by
      apply find_unique
      · rw [List.mem_reverse]; exact List.mem_map.2 ⟨_, h, rfl⟩
      · simp
      · intro b hb hk
        rw [List.mem_reverse] at hb
        obtain ⟨⟨r', c', w⟩, h', rfl⟩ := List.mem_map.1 hb
        simp only [Bool.and_eq_true, beq_iff_eq] at hk
        obtain ⟨rfl, rfl⟩ := hk
        rw [huniq _ _ _ _ h h']
    have := hcell i' j' r c hi hj
    rw [hfind] at this
    exact this
  refine ⟨m, ?_, ⟨hml.trans hRl, fun r hr => (hmr r hr).trans hCl⟩, ?_, ?_⟩
  · have ne : ∀ {α : Type} {l : List α}, l ≠ [] → answer l = .rows l := by
      intro α l h
      unfold answer
      rw [if_neg (by simpa using h)]
    obtain ⟨v0, hv0⟩ := hany r0 hr0 c0 hc0
    have n1 : recs ≠ [] := List.ne_nil_of_mem (List.mem_map.2 ⟨_, hv0, rfl⟩)
    have n2 : R ≠ [] := List.ne_nil_of_mem ((hRm r0).2 hr0)
    have n3 : C ≠ [] := List.ne_nil_of_mem ((hCm c0).2 hc0)
    show fromDb E fuel p (answer recs) (answer R) (answer C) = _
    rw [ne n1, ne n2, ne n3]
    show fill E fuel p recs R C = _
    unfold fill
    rw [hm]
    rfl
  · intro i j i' j' r c hi hj hi' hj'
    obtain ⟨x, v, hx, -, hb, hmem⟩ := hcm i j r c hi hj
    exact ⟨x, hx, by rw [hval r c v hmem i' j' hi' hj', hb]⟩
  · intro i j i' j' r c hi hj hi' hj'
    obtain ⟨s, hs, hmem⟩ := htm i j r c hi hj
    exact ⟨s, hs, hval r c _ hmem i' j' hi' hj'⟩

/-- **C206**: a number of at most six digits, times any power of ten, comes back exactly; any other with an error of at most one in 200000. NaN comes back if the text for NaN reads as NaN. -/
theorem C206_digits (E : Env) :
    (∀ n k : ℤ, |n| < 1000000 → back E (.fin ((n : ℚ) * (10 : ℚ) ^ k)) = .fin ((n : ℚ) * (10 : ℚ) ^ k)) ∧
    (∀ q : ℚ, ∃ q', back E (.fin q) = .fin q' ∧ |q' - q| ≤ |q| / 200000) ∧
    (E.atof E.nanStr = .nan → back E .nan = .nan) :=
  ⟨fun n k h => by rw [back, round6_exact n k h], fun q => ⟨_, rfl, round6_close q⟩, id⟩

/-- Decimals as SQLite prints whole numbers and `atof` reads them (what isn't a number reads as 0), with the text for NaN. -/
def decimals (nanStr : CStr) : Env where
  show_ q := Out.strip (Out.fmtInt ⌊q⌋)
  nanStr := nanStr
  atof s := if s = [78, 97, 78] then .nan else match Out.readDec s with
    | some q => .fin q
    | none => .fin 0

theorem decimals_reads (nanStr : CStr) (n : ℤ) (h : |n| < 1000000) : Reads (decimals nanStr) (.fin n) := by
  have e := round6_exact n 0 h
  simp only [zpow_zero, mul_one] at e
  show (decimals nanStr).atof _ = _
  rw [e]
  show (if Out.strip (Out.fmtInt ⌊(n : ℚ)⌋) = [78, 97, 78] then Val.nan else match Out.readDec (Out.strip (Out.fmtInt ⌊(n : ℚ)⌋)) with
    | some q => .fin q
    | none => .fin 0) = .fin n
  rw [Int.floor_intCast, Out.fmtInt_read, if_neg]
  intro h
  have := Out.fmtInt_read n
  rw [h] at this
  revert this
  rw [show Out.readDec [78, 97, 78] = none by decide +kernel]
  intro h; cases h

/-- **C206** for tables of counts: whole numbers below a million, written as decimals, all come back, each in its cell. -/
theorem C206_counts (p : Option CStr) (rn cn : List CStr) (N : List (List ℤ)) (hN : Shape N rn.length cn.length) (hlt : ∀ r ∈ N, ∀ x ∈ r, |x| < 1000000)
    (hrn : rn.Nodup) (hcn : cn.Nodup) (hq : ∀ s ∈ rn ++ cn, Plain s) (hne : rn ≠ []) (hce : cn ≠ []) (R C : List CStr)
    (hR : Distinct R ((table (toDb rn cn [] (N.map (·.map fun n : ℤ => .fin n)) (rn.map fun _ => []))).map (·.1)))
    (hC : Distinct C ((table (toDb rn cn [] (N.map (·.map fun n : ℤ => .fin n)) (rn.map fun _ => []))).map (·.2.1))) :
    ∃ fuel0, ∀ fuel, fuel0 ≤ fuel → ∃ m,
      trip (decimals [78, 97, 78]) fuel p rn cn [] (N.map (·.map fun n : ℤ => .fin n)) (rn.map fun _ => []) R C = some (.ok (some ⟨R, C, some m, none⟩, p)) ∧
      ∀ i j i' j' r c, rn[i]? = some r → cn[j]? = some c → R[i']? = some r → C[j']? = some c → ∃ n, cell N i j = some n ∧ cell m i' j' = some (.fin n) := by
  obtain ⟨-, -, f0, hf⟩ := C206_trip (decimals [78, 97, 78]) p rn cn [] (N.map (·.map fun n : ℤ => .fin n)) (rn.map fun _ => [])
    ⟨by simpa using hN.1, by
      intro r hr
      obtain ⟨r', hr', rfl⟩ := List.mem_map.1 hr
      simpa using hN.2 r' hr'⟩
    ⟨by simp, by
      intro r hr
      obtain ⟨_, -, rfl⟩ := List.mem_map.1 hr
      rfl⟩
    hrn (by simpa using hcn) (by simpa using hq)
    (by
      intro r hr
      obtain ⟨_, -, rfl⟩ := List.mem_map.1 hr
      intro s hs; cases hs)
    (by
      intro r hr x hx
      obtain ⟨r', hr', rfl⟩ := List.mem_map.1 hr
      obtain ⟨n, hn, rfl⟩ := List.mem_map.1 hx
      exact decimals_reads _ n (hlt r' hr' n hn))
    hne (by simpa using hce) R C hR hC
  refine ⟨f0, fun fuel h => ?_⟩
  obtain ⟨m, hm, -, hcell, -⟩ := hf fuel h
  refine ⟨m, hm, fun i j i' j' r c hi hj hi' hj' => ?_⟩
  obtain ⟨x, hx, hmx⟩ := hcell i j i' j' r c hi hj hi' hj'
  have hx' : (cell N i j).map (fun n : ℤ => Val.fin n) = some x := by
    rw [← hx]
    unfold cell
    rw [List.getElem?_map]
    cases N[i]? with
    | none => rfl
    | some row => simp
  obtain ⟨n, hn, rfl⟩ := Option.map_eq_some_iff.1 hx'
  refine ⟨n, hn, ?_⟩
  obtain ⟨r', hr', hnr⟩ := cell_mem hn
  have e := round6_exact n 0 (hlt r' hr' n hnr)
  simp only [zpow_zero, mul_one] at e
  rw [hmx, back, e]

/-- **C206**: `db_name_column` is put back unless the first query has no rows; a failure of one of the two others is error 'q'. -/
theorem C206_restored (E : Env) (fuel : Nat) (p p' : Option CStr) (recs : Ans (CStr × CStr × CStr)) (R C : Ans CStr) (o : Option Out)
    (h : fromDb E fuel p recs R C = some (.ok (o, p'))) (hn : recs ≠ .null) : p' = p ∧ o.isSome = true ∧
      ((recs ≠ .err ∧ ((∀ l, R ≠ .rows l) ∨ ∀ l, C ≠ .rows l)) → ∃ x, o = some x ∧ x.error = some 'q' ∧ x.matrix = none) := by
  cases recs with
  | null => exact absurd rfl hn
  | err =>
    simp only [fromDb, Option.some.injEq, Res.ok.injEq, Prod.mk.injEq] at h
    exact ⟨h.2.symm, by rw [← h.1]; rfl, fun h' => absurd rfl h'.1⟩
  | rows l =>
    cases R with
    | null =>
      simp only [fromDb, Option.some.injEq, Res.ok.injEq, Prod.mk.injEq] at h
      exact ⟨h.2.symm, by rw [← h.1]; rfl, fun _ => ⟨_, h.1.symm, rfl, rfl⟩⟩
    | err =>
      simp only [fromDb, Option.some.injEq, Res.ok.injEq, Prod.mk.injEq] at h
      exact ⟨h.2.symm, by rw [← h.1]; rfl, fun _ => ⟨_, h.1.symm, rfl, rfl⟩⟩
    | rows r =>
      cases C with
      | null =>
        simp only [fromDb, Option.some.injEq, Res.ok.injEq, Prod.mk.injEq] at h
        exact ⟨h.2.symm, by rw [← h.1]; rfl, fun _ => ⟨_, h.1.symm, rfl, rfl⟩⟩
      | err =>
        simp only [fromDb, Option.some.injEq, Res.ok.injEq, Prod.mk.injEq] at h
        exact ⟨h.2.symm, by rw [← h.1]; rfl, fun _ => ⟨_, h.1.symm, rfl, rfl⟩⟩
      | rows c =>
        simp only [fromDb, fill] at h
        split at h
        · cases h
        · cases h
        · simp only [Option.some.injEq, Res.ok.injEq, Prod.mk.injEq] at h
          refine ⟨h.2.symm, by rw [← h.1]; rfl, ?_⟩
          rintro ⟨-, h' | h'⟩
          · exact absurd rfl (h' r)
          · exact absurd rfl (h' c)

/-- **C206** refuted for a table without records: NULL, and whatever `db_name_column` was, it is NULL from then on. -/
theorem C206_column_lost_refuted (E : Env) (fuel : Nat) (p : Option CStr) (R C : Ans CStr) : fromDb E fuel p (.null) R C = some (.ok (none, none)) := rfl

/-- **C206** refuted: the documentation has error 'q' for a query that fails; when the first fails there is a data set with no matrix and no error. -/
theorem C206_error_refuted (E : Env) (fuel : Nat) (p : Option CStr) (R C : Ans CStr) :
    ∃ o, fromDb E fuel p .err R C = some (.ok (some o, p)) ∧ o.matrix = none ∧ o.error = none := ⟨_, rfl, rfl, rfl⟩

/-- **C206** refuted for seven digits. -/
theorem C206_digits_refuted (E : Env) : back E (.fin 1234567) = .fin 1234570 := by
  have : round6 1234567 = 1234570 := by decide +kernel
  rw [back, this]

/-- **C206** refuted for infinities: the insertion fails silently, and where another row has that column the cell reads 0. -/
theorem C206_infinite_refuted (b : Bool) : trip (decimals [78, 97, 78]) 9 none [[97], [98]] [[120], [121]] [] [[.inf b, .fin 1], [.fin 2, .fin 3]] [[], []] [[97], [98]] [[120], [121]] =
    some (.ok (some ⟨[[97], [98]], [[120], [121]], some [[.fin 0, .fin 1], [.fin 2, .fin 3]], none⟩, none)) := by
  cases b <;> decide +kernel

/-- **C206** refuted for names with a quote: the row of O'B is not written at all, and a name with two quotes loses one. -/
theorem C206_quote_refuted : (table (toDb [[79, 39, 66], [97]] [[120]] [] [[.fin 1], [.fin 2]] [[], []])).map (·.1) = [[97]] ∧
    (table (toDb [[97, 39, 39, 98]] [[120]] [] [[.fin 1]] [[]])).map (·.1) = [[97, 39, 98]] := by
  constructor <;> decide +kernel

/-- **C206** refuted for a text for NaN that isn't read as NaN: with "." a NaN comes back as 0. -/
theorem C206_nan_refuted : trip (decimals [46]) 9 none [[97]] [[120]] [] [[.nan]] [[]] [[97]] [[120]] = some (.ok (some ⟨[[97]], [[120]], some [[.fin 0]], none⟩, none)) := by
  decide +kernel

/-- **C206** refuted for two rows of one name: one row is left, with the later cells. -/
theorem C206_twice_refuted : trip (decimals [78, 97, 78]) 9 none [[97], [97]] [[120], [121]] [] [[.fin 1, .fin 2], [.fin 3, .nan]] [[], []] [[97]] [[120], [121]] =
    some (.ok (some ⟨[[97]], [[120], [121]], some [[.fin 3, .nan]], none⟩, none)) := by
  decide +kernel

/-- Names out of order, numbers, a NaN, and a text column. -/
example : trip (decimals [78, 97, 78]) 9 (some [110]) [[98], [97]] [[121], [120]] [[116]] [[.fin 1, .fin (-22)], [.nan, .fin 333]] [[[55]], [[113]]] [[97], [98]] [[116], [120], [121]] =
    some (.ok (some ⟨[[97], [98]], [[116], [120], [121]], some [[.fin 0, .fin 333, .nan], [.fin 7, .fin (-22), .fin 1]], none⟩, some [110])) := by
  decide +kernel

example : Distinct [[97], [98]] ((table (toDb [[98], [97]] [[120]] [] ([[1], [2]].map (·.map fun n : ℤ => .fin n)) ([[98], [97]].map fun _ => []))).map (·.1)) := by
  constructor
  · decide
  · rw [show (table (toDb [[98], [97]] [[120]] [] ([[1], [2]].map (·.map fun n : ℤ => .fin n)) ([[98], [97]].map fun _ => []))).map (·.1) = [[98], [97]] by decide +kernel]
    intro s; simp [or_comm]

end Apop.CrossTrip
