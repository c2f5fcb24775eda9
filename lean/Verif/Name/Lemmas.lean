import Verif.Name.Model

namespace Apop.Names

/-- The hash block is in step with its list: NULL for an empty list, otherwise one correct hash
per name. -/
def InStep (l : List CStr) (h : List (Option UInt64)) : Prop := h = l.map (fun s => some (djb2 s))

/-- All three blocks in step. -/
def Good (n : Names) : Prop :=
  InStep n.col n.colhash ∧ InStep n.row n.rowhash ∧ InStep n.text n.texthash

theorem good_alloc : Good alloc := by simp [Good, InStep, alloc]

theorem growHash_inStep {l h} (s : CStr) (hh : InStep l h) :
    InStep (l ++ [s]) (growHash h (l.length + 1) (djb2 s)) := by
  unfold InStep at *; subst hh
  simp [growHash]

theorem good_add {n : Names} (hn : Good n) (s : Option CStr) (t : Char) : Good (n.add s t).1 := by
  obtain ⟨h1, h2, h3⟩ := hn
  unfold add
  cases s with
  | none => exact ⟨h1, h2, h3⟩
  | some s =>
    dsimp only
    repeat' split
    all_goals
      first
        | exact ⟨h1, h2, h3⟩
        | exact ⟨growHash_inStep s h1, h2, h3⟩
        | exact ⟨h1, growHash_inStep s h2, h3⟩
        | exact ⟨h1, h2, growHash_inStep s h3⟩

theorem good_addAll {n : Names} (hn : Good n) (src : List CStr) (t : Char) :
    Good (n.addAll src t) := by
  unfold addAll
  induction src generalizing n with
  | nil => exact hn
  | cons a l ih => exact ih (good_add hn _ _)

theorem good_stack {n1 : Names} (h1 : Good n1) (n2 : Option Names) (t ta) :
    Good (n1.stack n2 t ta) := by
  unfold stack
  cases n2 with
  | none => exact h1
  | some m =>
    dsimp only
    repeat' split
    all_goals first | exact h1 | exact good_add h1 _ _ | exact good_addAll h1 _ _

theorem good_copy (n : Names) : Good n.copy := by
  have : Good ((((alloc.stack (some n) (some 'v') none).stack (some n) (some 'c') none).stack
    (some n) (some 'r') none).stack (some n) (some 't') none) :=
    good_stack (good_stack (good_stack (good_stack good_alloc _ _ _) _ _ _) _ _ _) _ _ _
  exact this

theorem addAll_of_col {n : Names} {src} {t : Char} (h : t ≠ 'h') (hv : t ≠ 'v') (hr : t ≠ 'r')
    (ht : t ≠ 't') : (n.addAll src t).col = n.col ++ src ∧ (n.addAll src t).row = n.row ∧
      (n.addAll src t).text = n.text ∧ (n.addAll src t).vector = n.vector ∧
      (n.addAll src t).title = n.title := by
  unfold addAll
  induction src generalizing n with
  | nil => simp
  | cons a l ih =>
    rw [List.foldl_cons]
    obtain ⟨h1, h2, h3, h4, h5⟩ := ih (n := (n.add (some a) t).1)
    rw [h1, h2, h3, h4, h5]
    simp [add, h, hv, hr, ht]

theorem addAll_of_row {n : Names} {src} :
    (n.addAll src 'r').row = n.row ++ src ∧ (n.addAll src 'r').col = n.col ∧
      (n.addAll src 'r').text = n.text ∧ (n.addAll src 'r').vector = n.vector ∧
      (n.addAll src 'r').title = n.title := by
  unfold addAll
  induction src generalizing n with
  | nil => simp
  | cons a l ih =>
    rw [List.foldl_cons]
    obtain ⟨h1, h2, h3, h4, h5⟩ := ih (n := (n.add (some a) 'r').1)
    rw [h1, h2, h3, h4, h5]
    simp [add]

theorem addAll_of_text {n : Names} {src} :
    (n.addAll src 't').text = n.text ++ src ∧ (n.addAll src 't').col = n.col ∧
      (n.addAll src 't').row = n.row ∧ (n.addAll src 't').vector = n.vector ∧
      (n.addAll src 't').title = n.title := by
  unfold addAll
  induction src generalizing n with
  | nil => simp
  | cons a l ih =>
    rw [List.foldl_cons]
    obtain ⟨h1, h2, h3, h4, h5⟩ := ih (n := (n.add (some a) 't').1)
    rw [h1, h2, h3, h4, h5]
    simp [add]

theorem addAll_of_vector {n : Names} {src} :
    (n.addAll src 'v').text = n.text ∧ (n.addAll src 'v').col = n.col ∧
      (n.addAll src 'v').row = n.row ∧ (n.addAll src 'v').vector = (src.getLast?).or n.vector ∧
      (n.addAll src 'v').title = n.title := by
  unfold addAll
  induction src generalizing n with
  | nil => simp
  | cons a l ih =>
    rw [List.foldl_cons]
    obtain ⟨h1, h2, h3, h4, h5⟩ := ih (n := (n.add (some a) 'v').1)
    rw [h1, h2, h3, h4, h5]
    simp [add, List.getLast?_cons]

theorem addAll_of_title {n : Names} {src} :
    (n.addAll src 'h').text = n.text ∧ (n.addAll src 'h').col = n.col ∧
      (n.addAll src 'h').row = n.row ∧ (n.addAll src 'h').vector = n.vector ∧
      (n.addAll src 'h').title = (src.getLast?).or n.title := by
  unfold addAll
  induction src generalizing n with
  | nil => simp
  | cons a l ih =>
    rw [List.foldl_cons]
    obtain ⟨h1, h2, h3, h4, h5⟩ := ih (n := (n.add (some a) 'h').1)
    rw [h1, h2, h3, h4, h5]
    simp [add, List.getLast?_cons]

/-- A list that one `add` either leaves alone or extends. -/
def Sel (sel : Names → List CStr) : Prop := ∀ n s t, ∃ e, sel (add n s t).1 = sel n ++ e

theorem sel_row : Sel Names.row := by
  intro n s t; unfold add
  cases s <;> dsimp only <;> repeat' split
  all_goals first | exact ⟨[_], rfl⟩ | exact ⟨[], by simp⟩
theorem sel_col : Sel Names.col := by
  intro n s t; unfold add
  cases s <;> dsimp only <;> repeat' split
  all_goals first | exact ⟨[_], rfl⟩ | exact ⟨[], by simp⟩
theorem sel_text : Sel Names.text := by
  intro n s t; unfold add
  cases s <;> dsimp only <;> repeat' split
  all_goals first | exact ⟨[_], rfl⟩ | exact ⟨[], by simp⟩

theorem addSelf_eq (sel) (hs : Sel sel) (t : Char) (k i : Nat) (n : Names)
    (h : i + k ≤ (sel n).length) :
    addSelf sel t k i n = .ok (n.addAll (((sel n).drop i).take k) t) := by
  induction k generalizing i n with
  | zero => simp [addSelf, addAll]
  | succ k ih =>
    have hi : i < (sel n).length := by omega
    simp only [addSelf, rd_of_lt hi, Res.bind_ok]
    obtain ⟨e, he⟩ := hs n (some (sel n)[i]) t
    rw [ih _ _ (by rw [he]; simp; omega), he]
    rw [List.drop_eq_getElem_cons hi]
    simp only [addAll, List.take_succ_cons, List.foldl_cons]
    rw [List.drop_append_of_le_length (by omega), List.take_append_of_le_length (by simp; omega)]

theorem stackSelf_eq (n : Names) (t ta : Option Char) (hv : (stackTypes t ta).2 ≠ 'v') :
    n.stackSelf t ta = .ok (n.stack (some n) t ta) := by
  unfold stackSelf stack
  simp only
  simp only [hv, if_false]
  repeat' split
  · rw [addSelf_eq _ sel_row _ _ _ _ (by omega)]; simp
  · rw [addSelf_eq _ sel_text _ _ _ _ (by omega)]; simp
  · rw [addSelf_eq _ sel_col _ _ _ _ (by omega)]; simp
  · rfl

/-! ### lookup -/

theorem plainPass_some {name l i r} (h : plainPass name l i = some r) :
    i ≤ r ∧ (∃ s, l[r - i]? = some s ∧ caseEq name s = true) ∧
      ∀ j, j < r - i → ∀ s, l[j]? = some s → caseEq name s = false := by
  induction l generalizing i with
  | nil => simp [plainPass] at h
  | cons a l ih =>
    unfold plainPass at h
    split at h
    · rename_i hc
      cases h
      exact ⟨Nat.le_refl _, ⟨a, by simp, hc⟩, by intro j hj; omega⟩
    · rename_i hc
      obtain ⟨h1, ⟨s, h2, h3⟩, h4⟩ := ih h
      refine ⟨by omega, ⟨s, ?_, h3⟩, ?_⟩
      · have : r - i = (r - (i+1)) + 1 := by omega
        rw [this]; simpa using h2
      · intro j hj s hs
        cases j with
        | zero => simp at hs; subst hs; simpa using hc
        | succ j => exact h4 j (by omega) s (by simpa using hs)

theorem plainPass_none {name l i} (h : plainPass name l i = none) :
    ∀ s ∈ l, caseEq name s = false := by
  induction l generalizing i with
  | nil => simp
  | cons a l ih =>
    unfold plainPass at h
    split at h
    · simp at h
    · rename_i hc
      intro s hs
      rcases List.mem_cons.mp hs with rfl | hs
      · simpa using hc
      · exact ih h s hs

/-- With a block in step the hash pass never leaves the block. -/
theorem hashPass_inStep (name : CStr) (l i) :
    ∃ r, hashPass name l (l.map (fun s => some (djb2 s))) i = .ok r := by
  induction l generalizing i with
  | nil => exact ⟨none, rfl⟩
  | cons a l ih =>
    simp only [List.map_cons, hashPass]
    split
    · exact ⟨_, rfl⟩
    · exact ih _

theorem hashPass_some {name l h i r} (hh : hashPass name l h i = .ok (some r)) :
    i ≤ r ∧ (∃ s, l[r - i]? = some s ∧ caseEq name s = true) := by
  induction l generalizing i h with
  | nil => simp [hashPass] at hh
  | cons a l ih =>
    cases h with
    | nil => simp [hashPass] at hh
    | cons b h =>
      cases b with
      | none => simp [hashPass] at hh
      | some b =>
        simp only [hashPass] at hh
        split at hh
        · rename_i hc
          injection hh with hh; injection hh with hh; subst hh
          exact ⟨Nat.le_refl _, a, by simp, hc.2⟩
        · obtain ⟨h1, s, h2, h3⟩ := ih hh
          refine ⟨by omega, s, ?_, h3⟩
          have : r - i = (r - (i+1)) + 1 := by omega
          rw [this]; simpa using h2

/-- In step: the hash pass finds the first entry with equal hash and equal up to case. -/
theorem hashPass_some_inStep {name l i r}
    (hh : hashPass name l (l.map (fun s => some (djb2 s))) i = .ok (some r)) :
    (∃ s, l[r - i]? = some s ∧ djb2 s = djb2 name ∧ caseEq name s = true) ∧
      ∀ j, j < r - i → ∀ s, l[j]? = some s → ¬ (djb2 s = djb2 name ∧ caseEq name s = true) := by
  induction l generalizing i with
  | nil => simp [hashPass] at hh
  | cons a l ih =>
    simp only [List.map_cons, hashPass] at hh
    split at hh
    · rename_i hc
      injection hh with hh; injection hh with hh; subst hh
      exact ⟨⟨a, by simp, hc.1.symm, hc.2⟩, by intro j hj; omega⟩
    · rename_i hc
      have h0 := (hashPass_some hh).1
      obtain ⟨⟨s, h2, h3⟩, h4⟩ := ih hh
      refine ⟨⟨s, ?_, h3⟩, ?_⟩
      · have : r - i = (r - (i+1)) + 1 := by omega
        rw [this]; simpa using h2
      · intro j hj s hs
        cases j with
        | zero => simp at hs; subst hs; exact fun ⟨a, b⟩ => hc ⟨a.symm, b⟩
        | succ j => exact h4 j (by omega) s (by simpa using hs)

theorem hashPass_none_inStep {name l i}
    (hh : hashPass name l (l.map (fun s => some (djb2 s))) i = .ok none) :
    ∀ s ∈ l, ¬ (djb2 s = djb2 name ∧ caseEq name s = true) := by
  induction l generalizing i with
  | nil => simp
  | cons a l ih =>
    simp only [List.map_cons, hashPass] at hh
    split at hh
    · simp at hh
    · rename_i hc
      intro s hs
      rcases List.mem_cons.mp hs with rfl | hs
      · exact fun ⟨a, b⟩ => hc ⟨a.symm, b⟩
      · exact ih hh s hs

theorem good_for {n : Names} (hn : Good n) (t : Char) : InStep (n.listFor t) (n.hashFor t) := by
  unfold listFor hashFor
  repeat' split
  · exact hn.2.1
  · exact hn.2.2
  · exact hn.1

theorem find_total {n : Names} (hn : Good n) (s : Option CStr) (t : Char) :
    ∃ r, n.find s t = .ok r := by
  unfold find
  cases s with
  | none => exact ⟨_, rfl⟩
  | some s =>
    have hg := good_for hn t
    unfold InStep at hg
    obtain ⟨r, hr⟩ := hashPass_inStep s (n.listFor t) 0
    have hf : ∃ r, n.hashFirst s t = .ok r := by
      unfold hashFirst; rw [hg, hr]
      split <;> exact ⟨_, rfl⟩
    obtain ⟨r, hf⟩ := hf
    simp only [hf, Res.bind_ok]
    repeat' split
    all_goals exact ⟨_, rfl⟩

end Apop.Names
