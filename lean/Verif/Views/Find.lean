import Verif.Views.Props
import Verif.Name.Props

/-! # C41: looking names up in a view

The hash block of a view is a pointer into the parent's (apop.m4.h:869, 911), so it goes on past the view's names. -/

namespace Apop.Views
open Names
variable {α : Type}

theorem hashPass_more (s : CStr) : ∀ (l : List CStr) (ext : List (Option UInt64)) (i : Nat),
    hashPass s l (l.map (fun x => some (djb2 x)) ++ ext) i = hashPass s l (l.map (fun x => some (djb2 x))) i
  | [], _, _ => rfl
  | x :: l, ext, i => by
    simp only [List.map_cons, List.cons_append, hashPass]
    rw [hashPass_more s l ext (i + 1)]

/-- Names in step, with hash blocks that may go on. -/
def Loose (n : Names) : Prop := ∃ a b c, n.colhash = n.col.map (fun x => some (djb2 x)) ++ a ∧ n.rowhash = n.row.map (fun x => some (djb2 x)) ++ b ∧ n.texthash = n.text.map (fun x => some (djb2 x)) ++ c

/-- The blocks cut to the names. -/
def trimmed (n : Names) : Names := { n with colhash := n.col.map (fun x => some (djb2 x)), rowhash := n.row.map (fun x => some (djb2 x)), texthash := n.text.map (fun x => some (djb2 x)) }

theorem good_trimmed (n : Names) : Good (trimmed n) := ⟨rfl, rfl, rfl⟩

theorem hashFirst_trim (s : CStr) (l : List CStr) (ext : List (Option UInt64)) :
    (if (l.map (fun x => some (djb2 x)) ++ ext).isEmpty then Res.ok none else hashPass s l (l.map (fun x => some (djb2 x)) ++ ext) 0) =
    (if (l.map (fun x => some (djb2 x))).isEmpty then Res.ok none else hashPass s l (l.map (fun x => some (djb2 x))) 0) := by
  cases l with
  | nil => cases ext <;> rfl
  | cons x l =>
    rw [if_neg (by simp), if_neg (by simp)]
    exact hashPass_more s _ ext 0

theorem find_trim {n : Names} (h : Loose n) (s : CStr) (t : Char) : n.find (some s) t = (trimmed n).find (some s) t := by
  obtain ⟨a, b, c, h1, h2, h3⟩ := h
  have key : n.hashFirst s t = (trimmed n).hashFirst s t := by
    unfold hashFirst hashFor listFor
    by_cases hr : t = 'r' ∨ t = 'R'
    · simp only [if_pos hr, h2, trimmed]; exact hashFirst_trim s _ _
    · by_cases ht : t = 't' ∨ t = 'T'
      · simp only [if_neg hr, if_pos ht, h3, trimmed]; exact hashFirst_trim s _ _
      · simp only [if_neg hr, if_neg ht, h1, trimmed]; exact hashFirst_trim s _ _
  show (do
    let first ← n.hashFirst s t
    _) = (do
    let first ← (trimmed n).hashFirst s t
    _)
  rw [key]
  rfl

theorem drop_split (l : List CStr) (k m : Nat) : (l.map fun x => some (djb2 x)).drop k = (((l.drop k).take m).map fun x => some (djb2 x)) ++ (((l.drop k).drop m).map fun x => some (djb2 x)) := by
  rw [← List.map_append, List.take_append_drop, List.map_drop]

theorem rowNames_loose {n : Names} (h : Good n) (r : Nat) : Loose (rowNames n r) := by
  obtain ⟨h1, h2, h3⟩ := h
  unfold InStep at h1 h2 h3
  by_cases hr : r < n.row.length
  · refine ⟨[], ((n.row.drop r).drop (min 1 (n.row.length - r))).map fun x => some (djb2 x), [], by simpa [rowNames] using h1, ?_, by simpa [rowNames] using h3⟩
    show (if r < n.row.length then n.rowhash.drop r else []) = _
    rw [if_pos hr, h2]
    exact drop_split _ _ _
  · refine ⟨[], [], [], by simpa [rowNames] using h1, ?_, by simpa [rowNames] using h3⟩
    have : n.row.length - r = 0 := by omega
    simp [rowNames, hr, this]

theorem colNames_loose {n : Names} (h : Good n) (c len : Nat) : Loose (colNames n c len) := by
  obtain ⟨h1, h2, h3⟩ := h
  unfold InStep at h1 h2 h3
  by_cases hr : c < n.col.length
  · refine ⟨((n.col.drop c).drop (min len (n.col.length - c))).map fun x => some (djb2 x), [], [], ?_, by simpa [colNames] using h2, by simp [colNames]⟩
    show (if c < n.col.length then n.colhash.drop c else []) = _
    rw [if_pos hr, h1]
    exact drop_split _ _ _
  · refine ⟨[], [], [], ?_, by simpa [colNames] using h2, by simp [colNames]⟩
    have : n.col.length - c = 0 := by omega
    simp [colNames, hr, this]

/-- Looking up in names of any kind whose blocks are in step as far as the names go: the place of a name that is the same up to case, if there is one. -/
theorem find_loose {n : Names} (h : Loose n) (s : CStr) (t : Char) : ∃ r, n.find (some s) t = .ok r ∧
    ((∃ x ∈ n.listFor t, SameUpToCase s x) → ∃ (k : Nat) (x : CStr), r = (k : Int) ∧ (n.listFor t)[k]? = some x ∧ SameUpToCase s x) ∧
    ((∀ x ∈ n.listFor t, ¬ SameUpToCase s x) → (n.vector = none → r = -2)) := by
  have hl : (trimmed n).listFor t = n.listFor t := rfl
  obtain ⟨r, hr⟩ := find_total (good_trimmed n) (some s) t
  refine ⟨r, by rw [find_trim h, hr], ?_, ?_⟩
  · rintro ⟨x, hx, hs⟩
    rcases C02_find_sound _ _ _ _ hr with ⟨h0, x, h1, h2⟩ | ⟨h1, h2, h3, h4⟩ | ⟨h1, h2, h3⟩
    · exact ⟨r.toNat, x, by omega, by rw [← hl]; exact h1, h2⟩
    · have : n.listFor t = n.col := by rcases h2 with h | h <;> subst h <;> rfl
      exact absurd hs (h4 x (by rw [this] at hx; exact hx))
    · exact absurd hs (h2 x (by rw [hl]; exact hx))
  · intro hno hv
    rcases C02_find_sound _ _ _ _ hr with ⟨h0, x, h1, h2⟩ | ⟨h1, h2, ⟨v, h3, -⟩, h4⟩ | ⟨h1, h2, h3⟩
    · exact absurd h2 (hno x (by rw [← hl]; exact List.mem_of_getElem? h1))
    · have : n.vector = some v := h3
      rw [hv] at this; cases this
    · exact h1

/-- **C41**: in a view of one row of a data set whose names were built by the library, the row's name (in any case) is found, at row 0, and no other row name is. -/
theorem C41_find_row (p : Page α) (r : Nat) (n : Names) (hn : p.names = some n) (hg : Good n) (h : r < n.row.length) (s : CStr) :
    ∃ v, (rowView p r 1).names = some v ∧ (SameUpToCase s n.row[r] → v.find (some s) 'r' = .ok 0) ∧ (¬ SameUpToCase s n.row[r] → v.find (some s) 'r' = .ok (-2)) := by
  refine ⟨rowNames n r, by simp [rowView, hn], ?_⟩
  have hrow : (rowNames n r).listFor 'r' = [n.row[r]] := by
    have : min 1 (n.row.length - r) = 1 := by omega
    show (n.row.drop r).take (min 1 (n.row.length - r)) = _
    rw [this, List.drop_eq_getElem_cons h]; rfl
  obtain ⟨k, hk, h1, -⟩ := find_loose (rowNames_loose hg r) s 'r'
  rw [hrow] at h1
  constructor
  · intro hs
    obtain ⟨j, x, e, hj, -⟩ := h1 ⟨_, List.mem_singleton.2 rfl, hs⟩
    have : j = 0 := by
      have := (List.getElem?_eq_some_iff.1 hj).1
      simpa using this
    subst this
    rw [hk, e, Int.ofNat_zero]
  · intro hs
    have htr := hk
    rw [find_trim (rowNames_loose hg r)] at htr
    rcases C02_find_sound _ _ _ _ htr with ⟨h0, x, h2, h3⟩ | ⟨h2, h3, -⟩ | ⟨h2, h3, -⟩
    · have h2 : ((rowNames n r).listFor 'r')[k.toNat]? = some x := h2
      rw [hrow] at h2
      have := List.mem_singleton.1 (List.mem_of_getElem? h2)
      exact absurd (this ▸ h3) hs
    · rcases h3 with h | h <;> cases h
    · rw [hk, h2]

/-- **C41**: in a view of columns `c` to `c + len - 1`, a column name (in any case) of one of them is found, at a column with that name counted from `c`; a name of no column there is not found. -/
theorem C41_find_col (p : Page α) (c len : Nat) (v : Page α) (n : Names) (hn : p.names = some n) (hg : Good n) (hv : colView p c len = some v) (s : CStr) :
    ∃ w, v.names = some w ∧
      ((∃ j : Nat, c ≤ j ∧ j < c + len ∧ ∃ x, n.col[j]? = some x ∧ SameUpToCase s x) → ∃ (k : Nat) (x : CStr), w.find (some s) 'c' = .ok (k : Int) ∧ k < len ∧ n.col[c + k]? = some x ∧ SameUpToCase s x) ∧
      ((∀ (j : Nat) (x : CStr), c ≤ j → j < c + len → n.col[j]? = some x → ¬ SameUpToCase s x) → w.find (some s) 'c' = .ok (-2)) := by
  have hw : v.names = some (colNames n c len) := by
    unfold colView at hv
    split at hv
    · cases hv
    · split at hv
      · cases hv
      · cases hv; simp [hn]
  refine ⟨_, hw, ?_⟩
  have hget : ∀ k, ((colNames n c len).listFor 'c')[k]? = if k < len then n.col[c + k]? else none := by
    intro k
    show ((n.col.drop c).take (min len (n.col.length - c)))[k]? = _
    rw [List.getElem?_take, List.getElem?_drop]
    by_cases h1 : k < len
    · by_cases h2 : k < n.col.length - c
      · rw [if_pos (by omega), if_pos h1]
      · rw [if_neg (by omega), if_pos h1, List.getElem?_eq_none (by omega)]
    · rw [if_neg (by omega), if_neg h1]
  obtain ⟨r, hr, h1, h2⟩ := find_loose (colNames_loose hg c len) s 'c'
  constructor
  · rintro ⟨j, hj1, hj2, x, hx, hs⟩
    have hm : x ∈ (colNames n c len).listFor 'c' := by
      apply List.mem_of_getElem? (i := j - c)
      rw [hget, if_pos (by omega), show c + (j - c) = j by omega]; exact hx
    obtain ⟨k, y, e, hk, hy⟩ := h1 ⟨x, hm, hs⟩
    rw [hget] at hk
    split at hk
    · exact ⟨k, y, by rw [hr, e], by assumption, hk, hy⟩
    · cases hk
  · intro hno
    rw [hr, h2 _ rfl]
    intro x hx
    obtain ⟨k, hk⟩ := List.mem_iff_getElem?.1 hx
    rw [hget] at hk
    split at hk
    · exact hno (c + k) x (by omega) (by omega) hk
    · cases hk

example : let n := (alloc.runAdds [(some (str "a"), 'r'), (some (str "b"), 'r'), (some (str "c"), 'r'), (some (str "x"), 'c'), (some (str "y"), 'c'), (some (str "z"), 'c')]).1
    Good n ∧ (rowNames n 1).find (some (str "B")) 'r' = .ok 0 ∧ (rowNames n 1).find (some (str "a")) 'r' = .ok (-2) ∧ (colNames n 1 2).find (some (str "z")) 'c' = .ok 1 ∧ (colNames n 1 2).find (some (str "x")) 'c' = .ok (-2) :=
  ⟨C02_reachable_good _, by decide +kernel, by decide +kernel, by decide +kernel, by decide +kernel⟩

end Apop.Views
