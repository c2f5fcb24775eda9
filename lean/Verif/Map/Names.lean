import Verif.Map.Rowwise
import Verif.Name.Props

/-! # C211: the names of what apop_map makes (apop_mapply.m4.c:167-184) -/

namespace Apop.Map
open Names
variable {α : Type}

/-- Whatever is written into the new set, its names stay those it was made with. -/
theorem mapPage_names {junk : α} {sch : Nat → List Nat} {fn : Fn α} {part : Char} {p p' q : Page α} (hs : ¬((part = 'c' ∨ part = 'r') ∧ fn.isScalar = true))
    (h : mapPage junk sch fn part .n p = .done (p', some q)) : 
    (∃ o, newOut junk fn.byRows part p = some o ∧ q.names = (named fn.byRows part p o).names) ∨ newOut junk fn.byRows part p = none := by
  cases hn : newOut junk fn.byRows part p with
  | none => exact Or.inr rfl
  | some o =>
    refine Or.inl ⟨o, rfl, ?_⟩
    rw [mapPage, if_neg hs] at h
    simp only [setup, hn, Option.map_some] at h
    cases fn with
    | row f =>
      simp only [Fn.byRows, Run.bind_eq_done] at h ⊢
      obtain ⟨⟨p1, v⟩, -, h⟩ := h
      injection h with h
      simp only [Prod.mk.injEq, Option.some.injEq] at h
      rw [← h.2]
    | scalar f =>
      simp only [Fn.byRows, Run.bind_eq_done] at h ⊢
      obtain ⟨o', ho, h⟩ := h
      injection h with h
      simp only [Prod.mk.injEq, Option.some.injEq] at h
      rw [← h.2]
      unfold scalarMap at ho
      simp only [Run.bind_eq_done] at ho
      obtain ⟨v, -, m, -, ho⟩ := ho
      injection ho with ho
      rw [← ho]
    | vec f =>
      simp only [Fn.byRows] at h ⊢
      split at h
      · split at h
        · injection h with h
          simp only [Prod.mk.injEq, Option.some.injEq] at h
          rw [← h.2]; rfl
        · simp only [Run.bind_eq_done] at h
          obtain ⟨⟨m', v⟩, -, h⟩ := h
          injection h with h
          simp only [Prod.mk.injEq, Option.some.injEq] at h
          rw [← h.2]
      · split at h
        · cases h
        · injection h with h
          simp only [Prod.mk.injEq, Option.some.injEq] at h
          rw [← h.2]

theorem newOut_names {junk : α} {b : Bool} {part : Char} {p o : Page α} (h : newOut junk b part p = some o) : o.names = some Names.alloc := by
  unfold newOut at h
  repeat' split at h
  all_goals first | (injection h with h; rw [← h]; rfl) | cases h

theorem newOut_some {junk : α} {b : Bool} {part : Char} {p : Page α} (h : part = 'v' ∨ part = 'm' ∨ part = 'a' ∨ part = 'r' ∨ part = 'c') : ∃ o, newOut junk b part p = some o := by
  unfold newOut
  repeat' split
  all_goals first | exact ⟨_, rfl⟩ | (exfalso; rcases h with h | h | h | h | h <;> simp_all)

/-- **C211 (names of a new set).** `apop_map` into a new set, over the part of a set that has names, with a function that suits the part. Call the new set's names m and the old's n. They are:
* for the vector's part, or a set with no matrix: the vector's name and the row names;
* for the matrix: the row and column names;
* for all, with a function that is not on row sets: all lists, and the vector's name;
* for a function on row sets, or by rows: the row names;
* by columns: none. -/
theorem C211_names {junk : α} {sch : Nat → List Nat} {fn : Fn α} {part : Char} {p p' q : Page α} {n : Names} (hn : p.names = some n)
    (hpart : part = 'v' ∨ part = 'm' ∨ part = 'a' ∨ part = 'r' ∨ part = 'c') (hs : ¬((part = 'c' ∨ part = 'r') ∧ fn.isScalar = true))
    (h : mapPage junk sch fn part .n p = .done (p', some q)) :
    ∃ m, q.names = some m ∧
      (m.vector, m.row, m.col, m.text) =
        if part = 'v' ∨ (p.vector.isSome = true ∧ p.matrix = none) then (n.vector, n.row, [], [])
        else if part = 'm' then (none, n.row, n.col, [])
        else if fn.byRows = false ∧ part = 'a' then (n.vector, n.row, n.col, n.text)
        else if fn.byRows = true ∨ part = 'r' then (none, n.row, [], [])
        else (none, [], [], []) := by
  obtain ⟨o, ho⟩ := newOut_some (junk := junk) (b := fn.byRows) (p := p) hpart
  have hq : q.names = (named fn.byRows part p o).names := by
    rcases mapPage_names hs h with ⟨o', ho', hq⟩ | h0
    · rw [ho] at ho'; injection ho' with ho'; rw [ho']; exact hq
    · rw [ho] at h0; cases h0
  have hnm : named fn.byRows part p o = { o with names := some (newNames fn.byRows part p n Names.alloc) } := by
    unfold named; rw [hn, newOut_names ho]
  rw [hnm] at hq
  refine ⟨_, hq, ?_⟩
  have hvo : vecOnly p = true ↔ (p.vector.isSome = true ∧ p.matrix = none) := by
    unfold vecOnly
    cases p.vector <;> cases p.matrix <;> simp
  have hR : ∀ a : Names, a.stack (some n) (some 'r') none = a.addAll n.row 'r' := fun a => rfl
  have hC : ∀ a : Names, a.stack (some n) (some 'c') none = a.addAll n.col 'c' := fun a => rfl
  have hV : Names.alloc.stack (some n) (some 'v') none = (Names.alloc.add n.vector 'v').1 := rfl
  unfold newNames
  simp only [hvo]
  by_cases h1 : part = 'v' ∨ p.vector.isSome = true ∧ p.matrix = none
  · rw [if_pos h1, if_pos h1, hR, hV]
    obtain ⟨e1, e2, e3, e4, -⟩ := addAll_of_row (n := (Names.alloc.add n.vector 'v').1) (src := n.row)
    rw [e1, e2, e3, e4]
    cases n.vector <;> rfl
  rw [if_neg h1, if_neg h1]
  by_cases h2 : part = 'm'
  · rw [if_pos h2, if_pos h2, hC, hR]
    obtain ⟨e1, e2, e3, e4, -⟩ := addAll_of_row (n := Names.alloc) (src := n.row)
    obtain ⟨f1, f2, f3, f4, -⟩ := addAll_of_col (n := Names.alloc.addAll n.row 'r') (src := n.col) (t := 'c') (by decide) (by decide) (by decide) (by decide)
    rw [f1, f2, f3, f4, e1, e2, e3, e4]
    rfl
  rw [if_neg h2, if_neg h2]
  by_cases h3 : fn.byRows = false ∧ part = 'a'
  · rw [if_pos h3, if_pos h3]
    obtain ⟨c1, c2, c3, c4, -⟩ := C03_copy n
    simp [c1, c2, c3, c4]
  rw [if_neg h3, if_neg h3]
  by_cases h4 : fn.byRows = true ∨ part = 'r'
  · rw [if_pos h4, if_pos h4, hR]
    obtain ⟨e1, e2, e3, e4, -⟩ := addAll_of_row (n := Names.alloc) (src := n.row)
    rw [e1, e2, e3, e4]
    rfl
  · rw [if_neg h4, if_neg h4]; rfl

/-! Cases that meet the hypotheses. -/

/-- A set of two rows and one column, with names. -/
def namedPage : Page Nat := { matrix := some ⟨[[1], [2]], 1⟩, names := some (((Names.alloc.add (some [65]) 'r').1.add (some [66]) 'r').1.add (some [67]) 'c').1 }

example : mapPage 0 (fun _ => [0, 1, 1, 0, 1, 0]) (.scalar (fun x _ => x + 1)) 'm' .n namedPage =
    .done (namedPage, some { matrix := some ⟨[[2], [3]], 1⟩, names := some (((Names.alloc.add (some [65]) 'r').1.add (some [66]) 'r').1.add (some [67]) 'c').1 }) := by decide +kernel

/-- By columns there are no names, although each element stands for a column with a name. -/
example : mapPage 0 (fun _ => [0, 0, 0, 0]) (.vec (fun _ _ => .ret 7)) 'c' .n namedPage =
    .done (namedPage, some { vector := some [7], names := some Names.alloc }) := by decide +kernel

end Apop.Map
