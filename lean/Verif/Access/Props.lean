import Verif.Access.Model
import Verif.Pages.Props
import Verif.Name.Props

/-! # C11 (get/set) and C43 (named elements) -/

namespace Apop.Access
variable {α : Type}

/-- Specification: a numeric cell of a page. -/
inductive Cell where
  | vec (i : Nat)
  | mat (i j : Nat)
  deriving DecidableEq

/-- Specification: the content of a cell. -/
def content (p : Page α) : Cell → Option α
  | .vec i => p.vector.bind (·[i]?)
  | .mat i j => p.matrix.bind (fun m => m.get? i j)

/-- Specification: the cell that (row, col) denotes: column -1, or column 0 of a data set with a
vector and no matrix, is the vector; a column below -1 denotes nothing. -/
def denotes (p : Page α) (row : Nat) (col : Int) : Option Cell :=
  if col = -1 ∨ (col = 0 ∧ p.matrix = none ∧ p.vector ≠ none) then some (.vec row)
  else if 0 ≤ col then some (.mat row col.toNat) else none

theorem usesVector_iff (p : Page α) (col : Int) :
    usesVector p col = true ↔ col = -1 ∨ (col = 0 ∧ p.matrix = none ∧ p.vector ≠ none) := by
  cases h1 : p.matrix <;> cases h2 : p.vector <;> simp [usesVector, h1, h2]

/-- **C11** (get). The value of the denoted cell if it exists; NaN if the part (vector or matrix) is
missing; otherwise a GSL range error. -/
theorem C11_get_body (p : Page α) (row : Nat) (col : Int) :
    (∀ c a, denotes p row col = some c → content p c = some a → getBody p row col = .val a) ∧
    (getBody p row col = .nan ↔
      (usesVector p col = true ∧ p.vector = none) ∨ (usesVector p col = false ∧ p.matrix = none)) ∧
    (∀ a, getBody p row col = .val a → ∃ c, denotes p row col = some c ∧ content p c = some a) := by
  by_cases hu : usesVector p col = true
  · have hu' := (usesVector_iff p col).1 hu
    have hd : denotes p row col = some (.vec row) := by simp only [denotes, hu', if_true]
    rw [hd]
    refine ⟨?_, ?_, ?_⟩
    · rintro c a h ha
      cases h
      simp only [content] at ha
      obtain ⟨v, hv, hr⟩ := Option.bind_eq_some_iff.1 ha
      simp [getBody, hu, hv, hr]
    · simp only [getBody, hu, if_true, true_and, Bool.true_eq_false, false_and, or_false]
      cases hv : p.vector with
      | none => simp
      | some v => cases hr : v[row]? <;> simp [hr]
    · intro a ha
      refine ⟨_, rfl, ?_⟩
      simp only [getBody, hu, if_true] at ha
      cases hv : p.vector with
      | none => rw [hv] at ha; simp at ha
      | some v =>
        rw [hv] at ha
        cases hr : v[row]? with
        | none => simp [hr] at ha
        | some b => simp [hr] at ha; simp [content, hv, hr, ha]
  · have hu' : ¬ (col = -1 ∨ (col = 0 ∧ p.matrix = none ∧ p.vector ≠ none)) :=
      fun h => hu ((usesVector_iff p col).2 h)
    have hf : usesVector p col = false := by simpa using hu
    have hd : denotes p row col = if 0 ≤ col then some (.mat row col.toNat) else none := by
      simp only [denotes, hu', if_false]
    rw [hd]
    refine ⟨?_, ?_, ?_⟩
    · rintro c a h ha
      by_cases hc : 0 ≤ col
      · rw [if_pos hc] at h; cases h
        simp only [content] at ha
        obtain ⟨m, hm, hg⟩ := Option.bind_eq_some_iff.1 ha
        have : ¬ col < 0 := by omega
        simp [getBody, hf, hm, this, hg]
      · rw [if_neg hc] at h; cases h
    · simp only [getBody, hf]
      cases hm : p.matrix with
      | none => simp
      | some m =>
        by_cases hc : col < 0
        · simp [hc]
        · cases hg : m.get? row col.toNat <;> simp [hc, hg]
    · intro a ha
      simp only [getBody, hf] at ha
      cases hm : p.matrix with
      | none => rw [hm] at ha; simp at ha
      | some m =>
        rw [hm] at ha
        by_cases hc : col < 0
        · simp [hc] at ha
        · have : 0 ≤ col := by omega
          cases hg : m.get? row col.toNat with
          | none => simp [hc, hg] at ha
          | some b => simp [hc, hg] at ha; exact ⟨.mat row col.toNat, by simp [this], by simp [content, hm, hg, ha]⟩

theorem matSet_spec (m : Mat α) (i j : Nat) (x a : α) (h : m.get? i j = some a) :
    ∃ m', matSet m i j x = some m' ∧ m'.cols = m.cols ∧
      ∀ i' j', m'.get? i' j' = if i' = i ∧ j' = j then some x else m.get? i' j' := by
  unfold Mat.get? at h
  obtain ⟨r, hr, hj⟩ := Option.bind_eq_some_iff.1 h
  obtain ⟨hjl, -⟩ := List.getElem?_eq_some_iff.1 hj
  obtain ⟨hil, -⟩ := List.getElem?_eq_some_iff.1 hr
  refine ⟨{ m with rows := m.rows.set i (r.set j x) }, by simp [matSet, hr, hjl], rfl, ?_⟩
  intro i' j'
  unfold Mat.get?
  by_cases hi : i' = i
  · subst hi
    simp only [List.getElem?_set_self hil, Option.bind_some, true_and, hr]
    by_cases hj' : j' = j
    · subst hj'; simp [hjl]
    · rw [List.getElem?_set_ne (by omega), if_neg hj']
  · rw [List.getElem?_set_ne (by omega), if_neg (by omega)]

/-- **C11** (set body). If (row, col) denotes an existing cell: 0 is returned, that cell holds the
value, every other cell of the page is unchanged, and so are weights, text and names. -/
theorem C11_set_body (p : Page α) (row : Nat) (col : Int) (x : α) (c : Cell) (old : α)
    (hc : denotes p row col = some c) (ho : content p c = some old) :
    ∃ p', setBody p row col x = (p', 0) ∧
      (∀ c', content p' c' = if c' = c then some x else content p c') ∧
      denotes p' row col = some c ∧
      p'.weights = p.weights ∧ p'.text = p.text ∧ p'.names = p.names ∧ p'.error = p.error := by
  by_cases hu : usesVector p col = true
  · have hu' := (usesVector_iff p col).1 hu
    simp only [denotes, hu', if_true, Option.some.injEq] at hc
    subst hc
    simp only [content] at ho
    obtain ⟨v, hv, hr⟩ := Option.bind_eq_some_iff.1 ho
    obtain ⟨hlt, -⟩ := List.getElem?_eq_some_iff.1 hr
    refine ⟨{ p with vector := some (v.set row x) }, by simp [setBody, hu, hv, hlt], ?_, ?_,
      rfl, rfl, rfl, rfl⟩
    · intro c'
      cases c' with
      | vec i =>
        by_cases hi : i = row
        · subst hi; simp [content, hlt]
        · have h1 : ¬ row = i := fun h => hi h.symm
          simp [content, hi, hv, h1]
      | mat i j => simp [content]
    · have : col = -1 ∨ (col = 0 ∧ p.matrix = none) := by
        rcases hu' with h | h
        · exact Or.inl h
        · exact Or.inr ⟨h.1, h.2.1⟩
      simp [denotes, this]
  · have hu' : ¬ (col = -1 ∨ (col = 0 ∧ p.matrix = none ∧ p.vector ≠ none)) :=
      fun h => hu ((usesVector_iff p col).2 h)
    have hc0 : 0 ≤ col := by
      by_cases h : 0 ≤ col
      · exact h
      · simp [denotes, hu', h] at hc
    simp only [denotes, hu', if_false, hc0, if_true, Option.some.injEq] at hc
    subst hc
    simp only [content] at ho
    obtain ⟨m, hm, hg⟩ := Option.bind_eq_some_iff.1 ho
    obtain ⟨m', e, -, hcells⟩ := matSet_spec m row col.toNat x old hg
    have hn : ¬ col < 0 := by omega
    refine ⟨{ p with matrix := some m' }, by simp [setBody, hu, hm, hn, e], ?_, ?_,
      rfl, rfl, rfl, rfl⟩
    · intro c'
      cases c' with
      | vec i => simp [content]
      | mat i j => simp [content, hcells, hm]
    · have : ¬ col = -1 := by omega
      simp [denotes, this, hc0]

theorem resolve_some {ps : List (Page α)} {w : Where} {before after : List (Page α)}
    {p : Page α} {row : Nat} {col : Int}
    (hr : resolve ps w = .ok (some (before, p, after, row, col))) :
    selectPage ps w.page = (before, p :: after) ∧ rowOf p.names w = .ok (some row) ∧
      colOf p.names w = .ok (some col) := by
  unfold resolve at hr
  generalize hs : selectPage ps w.page = sel at hr
  obtain ⟨b, l⟩ := sel
  cases l with
  | nil => simp at hr
  | cons q qs =>
    simp only [Res.bind_eq_ok] at hr
    obtain ⟨r1, e1, hr⟩ := hr
    cases r1 with
    | none => simp at hr
    | some rr =>
      simp only [Res.bind_eq_ok] at hr
      obtain ⟨c1, e2, hr⟩ := hr
      cases c1 with
      | none => simp at hr
      | some cc =>
        simp only [Res.ok.injEq, Option.some.injEq, Prod.mk.injEq] at hr
        obtain ⟨rfl, rfl, rfl, rfl, rfl⟩ := hr
        exact ⟨rfl, e1, e2⟩

theorem selectPage_some {ps before after : List (Page α)} {pg : Option CStr} {p : Page α}
    (h : selectPage ps pg = (before, p :: after)) :
    ps = before ++ p :: after ∧ ∀ p' : Page α,
      (∀ t, Pages.pageMatches (fun _ _ => false) 'c' t p' =
        Pages.pageMatches (fun _ _ => false) 'c' t p) →
      selectPage (before ++ p' :: after) pg = (before, p' :: after) := by
  unfold selectPage at h ⊢
  cases pg with
  | none =>
    simp only [Prod.mk.injEq] at h
    obtain ⟨rfl, rfl⟩ := h
    exact ⟨rfl, fun p' _ => rfl⟩
  | some t =>
    simp only [Prod.mk.injEq] at h
    obtain ⟨h1, h2⟩ := h
    refine ⟨by rw [← h1, ← h2, List.takeWhile_append_dropWhile], ?_⟩
    intro p' hpm
    have hb : ∀ b ∈ before, (!Pages.pageMatches (fun _ _ => false) 'c' t b) = true := by
      intro b hb
      rw [← h1] at hb
      exact List.all_eq_true.1 List.all_takeWhile b hb
    have hp : Pages.pageMatches (fun _ _ => false) 'c' t p = true := by
      have hne : List.dropWhile (fun p => !Pages.pageMatches (fun _ _ => false) 'c' t p) ps ≠ [] := by
        rw [h2]; simp
      have := List.head_dropWhile_not (fun p => !Pages.pageMatches (fun _ _ => false) 'c' t p) hne
      simp only [h2, List.head_cons] at this
      simpa using this
    simp only
    rw [List.takeWhile_append_of_pos hb, List.dropWhile_append_of_pos hb]
    simp [hpm, hp]

/-- **C11** (read what was written). On any page chain, with positions given by number, row name,
column name and page title in any combination: if the position resolves to an existing cell `c`
of page `p`, then set returns 0, the same get on the result returns the value, the other pages are
untouched and every other cell of the page is unchanged. -/
theorem C11_get_set (ps : List (Page α)) (w : Where) (x : α) (before after : List (Page α))
    (p : Page α) (row : Nat) (col : Int) (c : Cell) (old : α)
    (hr : resolve ps w = .ok (some (before, p, after, row, col)))
    (hc : denotes p row col = some c) (ho : content p c = some old) :
    get ps w = .ok (.val old) ∧
    ∃ p', set ps w x = .ok (before ++ p' :: after, 0) ∧
      get (before ++ p' :: after) w = .ok (.val x) ∧
      (∀ c', c' ≠ c → content p' c' = content p c') ∧
      ps = before ++ p :: after := by
  obtain ⟨p', e, hcells, hden, -, -, hnames, -⟩ := C11_set_body p row col x c old hc ho
  have hpm : ∀ t, Pages.pageMatches (fun _ _ => false) 'c' t p' =
      Pages.pageMatches (fun _ _ => false) 'c' t p := by
    intro t; simp [Pages.pageMatches, Pages.title, hnames]
  obtain ⟨hsel, hrow, hcol⟩ := resolve_some hr
  obtain ⟨h1, hrepl⟩ := selectPage_some hsel
  have hres' : resolve (before ++ p' :: after) w = .ok (some (before, p', after, row, col)) := by
    unfold resolve
    rw [hrepl p' hpm]
    simp [hnames, hrow, hcol]
  refine ⟨?_, p', ?_, ?_, ?_, h1⟩
  · simp only [get, hr, Res.bind_ok]
    rw [(C11_get_body p row col).1 c old hc ho]
  · simp [set, hr, e]
  · simp only [get, hres', Res.bind_ok]
    rw [(C11_get_body p' row col).1 c x hden (by rw [hcells]; simp)]
  · intro c' hne; rw [hcells, if_neg hne]

/-- **C11** (names or page not found): nothing is written, set returns -1, get returns NaN. -/
theorem C11_not_found (ps : List (Page α)) (w : Where) (x : α) (h : resolve ps w = .ok none) :
    set ps w x = .ok (ps, -1) ∧ get ps w = .ok .nan := by
  simp [set, get, h]

/-- **C11** (by number, first page). -/
theorem C11_by_number (p : Page α) (rest : List (Page α)) (row : Nat) (col : Int) (x : α) (c : Cell) (old : α)
    (hc : denotes p row col = some c) (ho : content p c = some old) :
    get (p :: rest) { row := row, col := col } = .ok (.val old) ∧
    ∃ p', set (p :: rest) { row := row, col := col } x = .ok (p' :: rest, 0) ∧
      get (p' :: rest) { row := row, col := col } = .ok (.val x) ∧
      ∀ c', c' ≠ c → content p' c' = content p c' := by
  have hr : resolve (p :: rest) { row := row, col := col } = .ok (some ([], p, rest, row, col)) := rfl
  obtain ⟨a, p', b, d, e, -⟩ := C11_get_set (p :: rest) _ x [] rest p row col c old hr hc ho
  exact ⟨a, p', b, d, e⟩

/-- **C11** (by row and column name, first page): the names are looked up with `apop_name_find`, whose
results C02 characterises. -/
theorem C11_by_name (p : Page α) (rest : List (Page α)) (n : Names) (rn cn : CStr) (i : Nat) (j : Int) (x : α)
    (c : Cell) (old : α) (hn : p.names = some n) (hi : n.find (some rn) 'r' = .ok (i : Int))
    (hj : n.find (some cn) 'c' = .ok j) (hj2 : j ≠ -2)
    (hc : denotes p i j = some c) (ho : content p c = some old) :
    get (p :: rest) { rowname := some rn, colname := some cn } = .ok (.val old) ∧
    ∃ p', set (p :: rest) { rowname := some rn, colname := some cn } x = .ok (p' :: rest, 0) ∧
      get (p' :: rest) { rowname := some rn, colname := some cn } = .ok (.val x) ∧
      ∀ c', c' ≠ c → content p' c' = content p c' := by
  have hr : resolve (p :: rest) { rowname := some rn, colname := some cn } = .ok (some ([], p, rest, i, j)) := by
    simp only [resolve, selectPage, rowOf, colOf, hn, hi, hj, Res.bind_ok]
    rw [if_neg (by omega), if_neg hj2]; simp
  obtain ⟨a, p', b, d, e, -⟩ := C11_get_set (p :: rest) _ x [] rest p i j c old hr hc ho
  exact ⟨a, p', b, d, e⟩

/-- **C11** (defaults): with no position given, the upper left matrix cell, or without a matrix the first
vector element. -/
theorem C11_defaults (p : Page α) (rest : List (Page α)) (x : α)
    (h : (p.matrix.bind (·.get? 0 0)) = some x ∨ (p.matrix = none ∧ (p.vector.bind (·[0]?)) = some x)) :
    get (p :: rest) {} = .ok (.val x) := by
  have e : get (p :: rest) {} = .ok (getBody p 0 0) := rfl
  rw [e]
  rcases h with h | ⟨h1, h2⟩
  · cases hm : p.matrix with
    | none => simp [hm] at h
    | some m => simp only [hm, Option.bind_some] at h; simp [getBody, usesVector, hm, h]
  · cases hv : p.vector with
    | none => simp [hv] at h2
    | some v => simp only [hv, Option.bind_some] at h2; simp [getBody, usesVector, h1, hv, h2]

/-- **C11** (missing part): nothing is written and -1 is returned when the denoted part is NULL. -/
theorem C11_set_missing_part (p : Page α) (row : Nat) (col : Int) (x : α)
    (h : (usesVector p col = true ∧ p.vector = none) ∨ (usesVector p col = false ∧ p.matrix = none)) :
    setBody p row col x = (p, -1) := by
  rcases h with ⟨h1, h2⟩ | ⟨h1, h2⟩ <;> simp [setBody, h1, h2]

/-- **C11** (finding): a position outside an existing vector or matrix writes nothing, but set
returns 0, not the documented -1. -/
theorem C11_out_of_bounds_returns_zero (p : Page α) (row : Nat) (col : Int) (x : α)
    (h : getBody p row col = .rangeError) : setBody p row col x = (p, 0) := by
  unfold getBody at h
  unfold setBody
  split at h
  · rename_i hu
    simp only [hu, if_true]
    cases hv : p.vector with
    | none => rw [hv] at h; simp at h
    | some v =>
      rw [hv] at h; simp only at h
      cases hr : v[row]? with
      | some a => rw [hr] at h; simp at h
      | none => simp [Nat.not_lt.2 (List.getElem?_eq_none_iff.1 hr)]
  · rename_i hu
    simp only [hu]
    cases hm : p.matrix with
    | none => rw [hm] at h; simp at h
    | some m =>
      rw [hm] at h; simp only at h
      by_cases hc : col < 0
      · simp [hc]
      · simp only [hc, if_false] at h ⊢
        cases hg : m.get? row col.toNat with
        | some a => rw [hg] at h; simp at h
        | none =>
          have : matSet m row col.toNat x = none := by
            unfold matSet
            unfold Mat.get? at hg
            cases hr : m.rows[row]? with
            | none => rfl
            | some r =>
              simp only [hr, Option.bind_some] at hg
              simp [Nat.not_lt.2 (List.getElem?_eq_none_iff.1 hg)]
          simp [this]

set_option synthInstance.maxSize 1000 in
/-- Non-vacuity of C11: setting cell (1,2) of the demo page, by row name "r0" for row 0. -/
example : ∃ p c, resolve [Page.demoPage] { rowname := some (str "R0"), col := 2 } =
    .ok (some ([], p, [], 0, 2)) ∧ denotes p 0 2 = some c ∧ content p c = some 3 :=
  ⟨Page.demoPage, .mat 0 2, by decide +kernel, by decide +kernel, by decide +kernel⟩
example : setBody Page.demoPage 5 0 9 = (Page.demoPage, 0) := by decide +kernel

/-! ## C43 -/

/-- Add all the (name, value) pairs in order. -/
def addAll (junk : α) (p : Page α) (l : List (CStr × α)) : Res (Page α) :=
  l.foldlM (fun p nv => addNamed junk p (some nv.1) nv.2) p

/-- The state after adding the pairs: names and values aligned. -/
def Aligned (p : Page α) (l : List (CStr × α)) : Prop :=
  ∃ n, p.names = some n ∧ n.Good ∧ n.row = l.map Prod.fst ∧
    (l = [] ∧ p.vector = none ∨ l ≠ [] ∧ p.vector = some (l.map Prod.snd)) ∧ p.matrix = none

theorem addNamed_aligned (junk : α) (p : Page α) (l : List (CStr × α)) (h : Aligned p l)
    (s : CStr) (x : α) : ∃ p', addNamed junk p (some s) x = .ok p' ∧ Aligned p' (l ++ [(s, x)]) := by
  obtain ⟨n, hn, hg, hrow, hv, hm⟩ := h
  have hr' : (n.add (some s) 'r').1.row = n.row ++ [s] := by simp [Names.add]
  have hlen : (n.add (some s) 'r').1.row.length = l.length + 1 := by rw [hr', hrow]; simp
  unfold addNamed
  rw [hn]
  simp only [hlen]
  have h0 : ¬ l.length + 1 = 0 := by omega
  simp only [h0, if_false, Nat.add_sub_cancel]
  rcases hv with ⟨rfl, hv⟩ | ⟨hne, hv⟩
  · simp only [hv, Option.getD_none, List.length_nil, Nat.zero_add, List.length_singleton,
      Nat.lt_irrefl, if_false]
    rw [wr_of_lt (by simp)]
    exact ⟨_, rfl, _, rfl, Names.good_add hg _ _, by rw [hr', hrow]; simp, Or.inr ⟨by simp, by simp⟩, hm⟩
  · simp only [hv, Option.getD_some, List.length_map, Nat.lt_succ_self, if_true]
    rw [wr_of_lt (by simp)]
    refine ⟨_, rfl, _, rfl, Names.good_add hg _ _, by rw [hr', hrow]; simp, Or.inr ⟨by simp, ?_⟩, hm⟩
    simp only [Option.some.injEq, List.map_append, List.map_cons, List.map_nil]
    rw [show l.length + 1 - l.length = 1 by omega, List.replicate_one,
      List.set_append_right _ _ (by simp)]
    simp

/-- **C43** (alignment). After adding any list of named values to a blank set, the row names are the
names and the vector the values, in order. -/
theorem C43_named_elements_aligned (junk : α) (l : List (CStr × α)) :
    ∃ p, addAll junk (Page.empty : Page α) l = .ok p ∧ Aligned p l := by
  have key : ∀ (l l0 : List (CStr × α)) (p : Page α), Aligned p l0 →
      ∃ p', addAll junk p l = .ok p' ∧ Aligned p' (l0 ++ l) := by
    intro l
    induction l with
    | nil => intro l0 p h; exact ⟨p, rfl, by simpa using h⟩
    | cons a l ih =>
      intro l0 p h
      obtain ⟨p1, e1, h1⟩ := addNamed_aligned junk p l0 h a.1 a.2
      obtain ⟨p2, e2, h2⟩ := ih _ _ h1
      refine ⟨p2, ?_, by simpa using h2⟩
      simp only [addAll, List.foldlM_cons, e1, Res.bind_ok]
      exact e2
  have := key l [] Page.empty ⟨Names.alloc, rfl, Names.good_alloc, rfl, Or.inl ⟨rfl, rfl⟩, rfl⟩
  simpa using this

/-- **C43** (dictionary). Getting by row name returns the value stored beside a name equal to the
key up to case; if the names are distinct up to case it is *the* value added under that name; a key
that no name equals gives NaN. -/
theorem C43_named_lookup (junk : α) (l : List (CStr × α)) (key : CStr) :
    ∃ p, addAll junk (Page.empty : Page α) l = .ok p ∧
      ((∀ nv ∈ l, ¬ Names.SameUpToCase key nv.1) → get [p] { rowname := some key } = .ok .nan) ∧
      ((∃ nv ∈ l, Names.SameUpToCase key nv.1) →
        ∃ nv ∈ l, Names.SameUpToCase key nv.1 ∧ get [p] { rowname := some key } = .ok (.val nv.2)) ∧
      (∀ nv ∈ l, Names.SameUpToCase key nv.1 →
        (∀ mv ∈ l, Names.SameUpToCase key mv.1 → mv = nv) →
        get [p] { rowname := some key } = .ok (.val nv.2)) := by
  obtain ⟨p, hp, n, hn, hg, hrow, hv, hm⟩ := C43_named_elements_aligned junk l
  obtain ⟨r, hr⟩ := Names.find_total hg (some key) 'r'
  have hlf : n.listFor 'r' = l.map Prod.fst := by simp [Names.listFor, hrow]
  have hget : get [p] { rowname := some key } =
      .ok (if r = -2 then .nan else getBody p r.toNat 0) := by
    have h1 : rowOf p.names { rowname := some key } =
        .ok (if r = -2 then none else some r.toNat) := by simp [rowOf, hn, hr]
    have h3 : colOf p.names { rowname := some key } = .ok (some 0) := by simp [colOf]
    unfold get resolve
    simp only [selectPage, h1, h3, Res.bind_ok]
    by_cases h2 : r = -2 <;> simp [h2]
  have hfound : ∀ nv ∈ l, Names.SameUpToCase key nv.1 →
      ∃ nv ∈ l, Names.SameUpToCase key nv.1 ∧ get [p] { rowname := some key } = .ok (.val nv.2) := by
    intro nv hnv hs
    rcases Names.C02_find_sound n key 'r' r hr with ⟨h0, x, hx, hsx⟩ | ⟨-, hc, -⟩ | ⟨-, hno, -⟩
    · rw [hlf, List.getElem?_map] at hx
      obtain ⟨mv, hmv, rfl⟩ := Option.map_eq_some_iff.1 hx
      refine ⟨mv, List.mem_of_getElem? hmv, hsx, ?_⟩
      rw [hget, if_neg (by omega)]
      congr 1
      rcases hv with ⟨rfl, -⟩ | ⟨-, hv⟩
      · simp at hmv
      · simp [getBody, usesVector, hm, hv, hmv]
    · rcases hc with h | h <;> simp at h
    · exact absurd hs (hno nv.1 (by rw [hlf]; exact List.mem_map_of_mem hnv))
  refine ⟨p, hp, ?_, ?_, ?_⟩
  · intro hno
    rcases Names.C02_find_sound n key 'r' r hr with ⟨h0, x, hx, hsx⟩ | ⟨-, hc, -⟩ | ⟨h2, -⟩
    · rw [hlf, List.getElem?_map] at hx
      obtain ⟨mv, hmv, rfl⟩ := Option.map_eq_some_iff.1 hx
      exact absurd hsx (hno mv (List.mem_of_getElem? hmv))
    · rcases hc with h | h <;> simp at h
    · rw [hget, if_pos h2]
  · rintro ⟨nv, h1, h2⟩; exact hfound nv h1 h2
  · intro nv h1 h2 huniq
    obtain ⟨mv, h3, h4, h5⟩ := hfound nv h1 h2
    rw [huniq mv h3 h4] at h5
    exact h5

example : ((addAll 0 (Page.empty : Page Nat) [(str "height", 165), (str "weight", 60)]) >>= fun p =>
    get [p] { rowname := some (str "Weight") }) = .ok (.val 60) := by decide +kernel

/-- **C43** (finding): adding a NULL name to a set that has named elements overwrites the last one. -/
theorem C43_null_name_overwrites :
    (addAll 0 (Page.empty : Page Nat) [(str "a", 1)] >>= fun p => addNamed 0 p none 7).map
      (fun p => (p.vector, p.names.map Names.row)) = .ok (some [7], some [str "a"]) := by
  decide +kernel

end Apop.Access
