import Verif.Asst.Model

/-! # C26: pasting text -/

namespace Apop.Asst

theorem tackOn_some (s : Option CStr) (a : CStr) : tackOn s (some a) = some (s.getD [] ++ a) := rfl
theorem tackOn_getD (s a : Option CStr) : (tackOn s a).getD [] = s.getD [] ++ a.getD [] := by
  cases a <;> simp [tackOn]
theorem tackOn_isSome (s a : Option CStr) : (tackOn s a).isSome = (s.isSome || a.isSome) := by
  cases a <;> simp [tackOn]

/-- What is used of one row: each cell kept, followed by the column separator unless it is in the last column. -/
def keptText (o : Paste) (i cols : Nat) : List CStr → Nat → CStr
  | [], _ => []
  | c :: cs, j => (if o.skips i j then [] else c ++ (if j + 1 < cols then o.betweenCols.getD [] else [])) ++ keptText o i cols cs (j + 1)

theorem pasteRow_eq (o : Paste) (i cols : Nat) : ∀ (cs : List CStr) (j : Nat) (l : Option CStr),
    (pasteRow o i cols cs j l).getD [] = l.getD [] ++ keptText o i cols cs j ∧
    ((pasteRow o i cols cs j l).isSome = true ↔ l.isSome = true ∨ ∃ k : Nat, k < cs.length ∧ o.skips i (j + k) = false)
  | [], j, l => by simp [pasteRow, keptText]
  | c :: cs, j, l => by
    rw [pasteRow, keptText]
    by_cases hs : o.skips i j = true
    · rw [if_pos hs, if_pos hs]
      obtain ⟨a, b⟩ := pasteRow_eq o i cols cs (j + 1) l
      refine ⟨by simpa using a, b.trans ?_⟩
      refine or_congr Iff.rfl ⟨?_, ?_⟩
      · rintro ⟨k, h1, h2⟩
        exact ⟨k + 1, by simp; omega, by rw [← h2]; congr 1; omega⟩
      · rintro ⟨k, h1, h2⟩
        cases k with
        | zero => simp [hs] at h2
        | succ k => exact ⟨k, by simp at h1; omega, by rw [← h2]; congr 1; omega⟩
    · rw [if_neg hs, if_neg hs]
      obtain ⟨a, b⟩ := pasteRow_eq o i cols cs (j + 1)
        (if j + 1 < cols then tackOn (tackOn l (some c)) o.betweenCols else tackOn l (some c))
      constructor
      · rw [a]
        by_cases hj : j + 1 < cols <;> simp [hj, tackOn_getD]
      · rw [b]
        constructor
        · intro _
          exact Or.inr ⟨0, by simp, by simpa using hs⟩
        · intro _
          left
          split <;> simp [tackOn_isSome]

/-- The lines put together: adjacent lines that exist are separated. -/
def glue (sep : CStr) : Option CStr → List (Option CStr) → CStr
  | p, [] => p.getD []
  | p, l :: ls => p.getD [] ++ (if p.isSome && l.isSome then sep else []) ++ glue sep l ls

/-- The lines of the rows. -/
def linesFrom (o : Paste) (cols : Nat) : List (List CStr) → Nat → List (Option CStr)
  | [], _ => []
  | r :: rs, i => pasteRow o i cols r 0 none :: linesFrom o cols rs (i + 1)

theorem pasteRows_eq (o : Paste) (cols : Nat) : ∀ (rows : List (List CStr)) (i : Nat) (out prior : Option CStr),
    let r := pasteRows o cols rows i out prior prior
    (tackOn r.1 r.2).getD [] = out.getD [] ++ glue (o.between.getD []) prior (linesFrom o cols rows i) ∧
    (tackOn r.1 r.2).isSome = (out.isSome || prior.isSome || (linesFrom o cols rows i).any Option.isSome)
  | [], i, out, prior => by simp [pasteRows, tackOn_getD, tackOn_isSome, linesFrom, glue]
  | r :: rs, i, out, prior => by
    simp only [pasteRows, linesFrom, glue]
    obtain ⟨a, b⟩ := pasteRows_eq o cols rs (i + 1)
      (if (prior.isSome && (pasteRow o i cols r 0 none).isSome) = true then tackOn (tackOn out prior) o.between else tackOn out prior)
      (pasteRow o i cols r 0 none)
    constructor
    · rw [a]
      split <;> simp [tackOn_getD]
    · rw [b]
      simp only [List.any_cons]
      by_cases h : (prior.isSome && (pasteRow o i cols r 0 none).isSome) = true
      · rw [if_pos h, tackOn_isSome, tackOn_isSome]
        rw [Bool.and_eq_true] at h
        simp [h.1]
      · rw [if_neg h, tackOn_isSome, Bool.or_assoc]

/-- **C26, in general**: what comes out for every grid, separator and prune function. -/
theorem paste_eq (o : Paste) (rows : List (List CStr)) (cols : Nat) :
    (paste o rows cols).getD [] = o.before.getD [] ++ glue (o.between.getD []) none (linesFrom o cols rows 0) ++ o.after.getD [] ∧
    (paste o rows cols).isSome = (o.before.isSome || (linesFrom o cols rows 0).any Option.isSome || o.after.isSome) := by
  obtain ⟨a, b⟩ := pasteRows_eq o cols rows 0 o.before none
  unfold paste
  simp only
  rw [tackOn_getD, tackOn_isSome, a, b]
  simp

theorem glue_intercalate (sep : CStr) : ∀ (ls : List CStr) (p : CStr), glue sep (some p) (ls.map some) = List.intercalate sep (p :: ls)
  | [], p => by simp [glue, List.intercalate]
  | l :: ls, p => by
    rw [List.map_cons, glue, glue_intercalate sep ls l]
    simp [List.intercalate]

/-- **C26**: if every row keeps some cell, the result is `before`, the row texts joined by `between`, then `after`, where the
text of row `i` is made of the cells kept, each followed by the column separator unless it is in the last column. -/
theorem C26_paste (o : Paste) (rows : List (List CStr)) (cols : Nat)
    (hk : ∀ (i : Nat) r, rows[i]? = some r → ∃ j : Nat, j < r.length ∧ o.skips i j = false) (hne : rows ≠ []) :
    paste o rows cols = some (o.before.getD [] ++
      List.intercalate (o.between.getD []) (rows.mapIdx (fun i r => keptText o i cols r 0)) ++ o.after.getD []) := by
  have hl : ∀ (rs : List (List CStr)) (i : Nat), (∀ (k : Nat) r, rs[k]? = some r → ∃ j : Nat, j < r.length ∧ o.skips (i + k) j = false) →
      linesFrom o cols rs i = (rs.mapIdx (fun k r => keptText o (i + k) cols r 0)).map some := by
    intro rs
    induction rs with
    | nil => intro i _; rfl
    | cons r rs ih =>
      intro i h
      rw [linesFrom, ih (i + 1) (by
        intro k r' hr
        obtain ⟨j, h1, h2⟩ := h (k + 1) r' (by simpa using hr)
        exact ⟨j, h1, by rw [← h2]; congr 1; omega⟩)]
      obtain ⟨j, h1, h2⟩ := h 0 r (by simp)
      obtain ⟨a, b⟩ := pasteRow_eq o i cols r 0 none
      have hs : (pasteRow o i cols r 0 none).isSome = true := b.2 (Or.inr ⟨j, h1, by simpa using h2⟩)
      obtain ⟨x, hx⟩ := Option.isSome_iff_exists.1 hs
      rw [hx] at a ⊢
      simp only [Option.getD_some, Option.getD_none, List.nil_append] at a
      subst a
      rw [List.mapIdx_cons, List.map_cons]
      congr 2
      apply List.ext_getElem (by simp)
      intro n h1 h2
      simp only [List.getElem_mapIdx]
      congr 1; omega
  have hlines := hl rows 0 (by simpa using hk)
  obtain ⟨a, b⟩ := paste_eq o rows cols
  cases rows with
  | nil => exact absurd rfl hne
  | cons r rs =>
    rw [hlines] at a b
    have hs : (paste o (r :: rs) cols).isSome = true := by rw [b, List.mapIdx_cons]; simp
    obtain ⟨x, hx⟩ := Option.isSome_iff_exists.1 hs
    rw [hx] at a ⊢
    simp only [Option.getD_some] at a
    rw [a, List.mapIdx_cons, List.map_cons, glue]
    simp only [Nat.zero_add, Option.getD_none, List.nil_append, Option.isSome_none, Bool.false_and]
    rw [glue_intercalate, List.mapIdx_cons]
    simp

theorem keptText_all (o : Paste) (hp : o.prune = none) (i : Nat) : ∀ (cs : List CStr) (j cols : Nat), j + cs.length = cols →
    keptText o i cols cs j = List.intercalate (o.betweenCols.getD []) cs
  | [], j, cols, _ => by simp [keptText, List.intercalate]
  | [c], j, cols, h => by
    simp only [List.length_singleton] at h
    simp [keptText, List.intercalate, Paste.skips, hp]; omega
  | c :: d :: cs, j, cols, h => by
    rw [keptText, keptText_all o hp i (d :: cs) (j + 1) cols (by simp at h ⊢; omega)]
    simp only [List.length_cons] at h
    have : o.skips i j = false := by simp [Paste.skips, hp]
    rw [this, if_neg (by simp), if_pos (by omega)]
    simp [List.intercalate]

/-- **C26 with nothing pruned**: `before`, then the rows joined by `between`, each being its cells joined by the column
separator, then `after`. -/
theorem C26_join (o : Paste) (hp : o.prune = none) (rows : List (List CStr)) (cols : Nat) (hc : 0 < cols)
    (hr : ∀ r ∈ rows, r.length = cols) :
    (paste o rows cols).getD [] = o.before.getD [] ++
      List.intercalate (o.between.getD []) (rows.map (List.intercalate (o.betweenCols.getD []))) ++ o.after.getD [] ∧
    ((paste o rows cols) = none ↔ o.before = none ∧ rows = [] ∧ o.after = none) := by
  by_cases hne : rows = []
  · subst hne
    obtain ⟨a, b⟩ := paste_eq o [] cols
    refine ⟨by rw [a]; simp [linesFrom, glue, List.intercalate], ?_⟩
    rw [← Option.isNone_iff_eq_none, ← Option.not_isSome]
    cases hb : o.before <;> cases ha : o.after <;> simp [b, hb, ha, linesFrom]
  · have := C26_paste o rows cols (by
      intro i r hi
      obtain ⟨h1, rfl⟩ := List.getElem?_eq_some_iff.1 hi
      exact ⟨0, by rw [hr _ (List.getElem_mem h1)]; exact hc, by simp [Paste.skips, hp]⟩) hne
    rw [this]
    refine ⟨?_, by simp [hne]⟩
    rw [Option.getD_some]
    congr 3
    apply List.ext_getElem (by simp)
    intro n h1 h2
    simp only [List.getElem_mapIdx, List.getElem_map]
    exact keptText_all o hp n _ 0 cols (by rw [hr _ (List.getElem_mem _)]; omega)

/-- The text of one row if pruning works as documented: cells for which the prune function returns nonzero are left out,
and the rest joined. -/
def documentedRow (o : Paste) (p : Nat → Nat → Bool) (i : Nat) (row : List CStr) : CStr :=
  List.intercalate (o.betweenCols.getD []) ((row.zipIdx.filter (fun x => !p i x.2)).map Prod.fst)

/-- The prune function works the wrong way round: the cells for which it returns nonzero are the only ones kept. Here the
documented example, "just use column 3" (with column 1 here), prunes exactly the wanted column. -/
theorem C26_prune_inverted_refuted :
    ∃ (o : Paste) (p : Nat → Nat → Bool) (rows : List (List CStr)), o.prune = some p ∧ (∀ i j, p i j = true ↔ j ≠ 1) ∧
      rows.mapIdx (documentedRow o p) = [str "b"] ∧ paste o rows 3 = some (str "a,c") :=
  ⟨{ prune := some (fun _ j => j ≠ 1), betweenCols := some (str ",") }, _, [[str "a", str "b", str "c"]], rfl, by simp,
    by decide +kernel, by decide +kernel⟩

/-- With the sense of the prune function taken as it is, a separator is left at the end of the line if the last column is
dropped, and no separator is put around a row that is dropped whole. -/
theorem C26_prune_separators_refuted :
    paste { prune := some (fun _ j => j = 0), betweenCols := some (str ",") } [[str "a", str "b"]] 2 = some (str "a,") ∧
    paste { prune := some (fun i _ => i ≠ 1), between := some (str ";") } [[str "a"], [str "b"], [str "c"]] 1 = some (str "ac") := by
  constructor <;> decide +kernel

example : paste { before := some (str "select "), between := some (str "; "), betweenCols := some (str ", "), after := some (str ".") }
    [[str "a", str "b"], [str "c", str "d"]] 2 = some (str "select a, b; c, d.") := by decide +kernel

end Apop.Asst
