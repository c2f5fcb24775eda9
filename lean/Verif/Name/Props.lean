import Verif.Name.Lemmas

/-! # C01-C03: names

Specification vocabulary: an "add" is a pair (string or NULL, type character). -/

namespace Apop.Names

/-- Run a sequence of `apop_name_add` calls, collecting the return values. -/
def runAdds (n : Names) : List (Option CStr × Char) → Names × List Int
  | [] => (n, [])
  | (s, t) :: ops =>
    let r := n.add s t
    let rest := runAdds r.1 ops
    (rest.1, r.2 :: rest.2)

/-- Specification: the non-NULL strings among `ops` whose type satisfies `p`, in call order. -/
def given (p : Char → Bool) (ops : List (Option CStr × Char)) : List CStr :=
  ops.filterMap (fun o => if p o.2 then o.1 else none)

/-- Specification: every type but h, v, r, t is a column. -/
def isCol (t : Char) : Bool := t != 'h' && t != 'v' && t != 'r' && t != 't'

/-- Specification of the return value of the add `op` after the adds `before`. -/
def expectedRet (n : Names) (before : List (Option CStr × Char)) (op : Option CStr × Char) : Int :=
  if op.1 = none then -1
  else if op.2 = 'h' ∨ op.2 = 'v' then 1
  else if op.2 = 'r' then n.row.length + (given (· == 'r') before).length + 1
  else if op.2 = 't' then n.text.length + (given (· == 't') before).length + 1
  else n.col.length + (given isCol before).length + 1

/-- **C01.** After any sequence of adds on any name structure, each list is the old list followed by
the strings given for it, in order; title and vector name are the last ones given. -/
theorem C01_adds_append (n : Names) (ops : List (Option CStr × Char)) :
    let m := (n.runAdds ops).1
    m.row = n.row ++ given (· == 'r') ops ∧
    m.text = n.text ++ given (· == 't') ops ∧
    m.col = n.col ++ given isCol ops ∧
    m.vector = ((given (· == 'v') ops).getLast?).or n.vector ∧
    m.title = ((given (· == 'h') ops).getLast?).or n.title := by
  induction ops generalizing n with
  | nil => simp [runAdds, given]
  | cons op ops ih =>
    obtain ⟨s, t⟩ := op
    simp only [runAdds]
    obtain ⟨h1, h2, h3, h4, h5⟩ := ih (n.add s t).1
    rw [h1, h2, h3, h4, h5]
    cases s with
    | none => simp [add, given]
    | some s =>
      by_cases hh : t = 'h'
      · subst hh; simp [add, given, isCol, List.getLast?_cons]
      by_cases hv : t = 'v'
      · subst hv; simp [add, given, isCol, List.getLast?_cons]
      by_cases hr : t = 'r'
      · subst hr; simp [add, given, isCol]
      by_cases ht : t = 't'
      · subst ht; simp [add, given, isCol]
      simp [add, given, isCol, hh, hv, hr, ht]

/-- **C01** (return values). The k-th call returns -1 for NULL, 1 for a title or vector name, and
otherwise the new length of the list it extended. -/
theorem C01_adds_return (n : Names) (ops : List (Option CStr × Char)) (k : Nat)
    (hk : k < ops.length) :
    (n.runAdds ops).2[k]? = some (expectedRet n (ops.take k) ops[k]) := by
  induction ops generalizing n k with
  | nil => simp at hk
  | cons op ops ih =>
    obtain ⟨s, t⟩ := op
    cases k with
    | zero =>
      cases s with
      | none => simp [runAdds, expectedRet, add]
      | some s =>
        simp only [runAdds, List.getElem?_cons_zero, List.take_zero, List.getElem_cons_zero,
          expectedRet, add, given]
        by_cases hh : t = 'h'
        · simp [hh]
        by_cases hv : t = 'v'
        · simp [hv]
        by_cases hr : t = 'r'
        · simp [hr]
        by_cases ht : t = 't'
        · simp [ht]
        simp [hh, hv, hr, ht]
    | succ k =>
      simp only [runAdds, List.getElem?_cons_succ, List.take_succ_cons, List.getElem_cons_succ]
      rw [ih _ _ (by simpa using hk)]
      have := C01_adds_append n [(s, t)]
      simp only [runAdds] at this
      obtain ⟨h1, h2, h3, -, -⟩ := this
      simp only [expectedRet, h1, h2, h3]
      have e : ∀ p l, given p ((s, t) :: l) = given p [(s, t)] ++ given p l := by
        intro p l; simp only [given, ← List.filterMap_append]; rfl
      simp only [e _ (ops.take k), List.length_append]
      congr 1
      repeat' split
      all_goals first | rfl | (push_cast; omega)

/-- A NULL string changes nothing and returns -1. -/
theorem C01_null_is_noop (n : Names) (t : Char) : n.add none t = (n, -1) := rfl

example : (alloc.runAdds [(some [65], 'r'), (none, 'r'), (some [66], 'q'), (some [67], 'r'),
    (some [68], 'h')]).1.row = [[65], [67]] := by decide
example : (alloc.runAdds [(some [65], 'r'), (none, 'r'), (some [66], 'q'), (some [67], 'r'),
    (some [68], 'h')]).2 = [1, -1, 1, 2, 1] := by decide

/-! ## C02: lookup -/

/-- Specification: equal up to ASCII case, bytewise. -/
def SameUpToCase (a b : CStr) : Prop :=
  a.length = b.length ∧ ∀ i : Nat, ∀ x y, a[i]? = some x → b[i]? = some y →
    x = y ∨ (65 ≤ x.toNat ∧ x.toNat ≤ 90 ∧ y.toNat = x.toNat + 32) ∨
      (65 ≤ y.toNat ∧ y.toNat ≤ 90 ∧ x.toNat = y.toNat + 32)

theorem lower_eq_iff (x y : UInt8) : lower x = lower y ↔
    x = y ∨ (65 ≤ x.toNat ∧ x.toNat ≤ 90 ∧ y.toNat = x.toNat + 32) ∨
      (65 ≤ y.toNat ∧ y.toNat ≤ 90 ∧ x.toNat = y.toNat + 32) := by
  have hx := x.toNat_lt
  have hy := y.toNat_lt
  have e65 : (65 : UInt8).toNat = 65 := rfl
  have e90 : (90 : UInt8).toNat = 90 := rfl
  have e32 : (32 : UInt8).toNat = 32 := rfl
  unfold lower
  split <;> split <;> rename_i h1 h2 <;>
    simp only [← UInt8.toNat_inj, UInt8.le_iff_toNat_le, UInt8.toNat_add, e65, e90, e32] at * <;>
    omega

theorem sameUpToCase_iff (a b : CStr) : SameUpToCase a b ↔ caseEq a b = true := by
  rw [caseEq_iff]
  constructor
  · rintro ⟨hl, h⟩
    apply List.ext_getElem (by simp [hl])
    intro i h1 h2
    simp only [List.length_map] at h1 h2
    simp only [List.getElem_map]
    exact (lower_eq_iff _ _).2 (h i _ _ (List.getElem?_eq_getElem h1) (List.getElem?_eq_getElem h2))
  · intro h
    have hl : a.length = b.length := by simpa using congrArg List.length h
    refine ⟨hl, ?_⟩
    intro i x y hx hy
    rw [← lower_eq_iff]
    have := congrArg (fun l => l[i]?) h
    simp only [List.getElem?_map, hx, hy, Option.map_some, Option.some.injEq] at this
    exact this

/-- **C02** (soundness, every structure, stale hashes and hash collisions included). Whenever the
lookup returns, a nonnegative result is the position of a matching name, -1 means the vector name
matches and no column does, -2 means that nothing matches. -/
theorem C02_find_sound (n : Names) (s : CStr) (t : Char) (r : Int)
    (h : n.find (some s) t = .ok r) :
    (0 ≤ r ∧ ∃ x, (n.listFor t)[r.toNat]? = some x ∧ SameUpToCase s x) ∨
    (r = -1 ∧ (t = 'c' ∨ t = 'C') ∧ (∃ v, n.vector = some v ∧ SameUpToCase s v) ∧
      ∀ x ∈ n.col, ¬ SameUpToCase s x) ∨
    (r = -2 ∧ (∀ x ∈ n.listFor t, ¬ SameUpToCase s x) ∧
      ((t = 'c' ∨ t = 'C') → ∀ v, n.vector = some v → ¬ SameUpToCase s v)) := by
  simp only [sameUpToCase_iff]
  unfold find at h
  simp only [Res.bind_eq_ok] at h
  obtain ⟨first, h1, h⟩ := h
  cases first with
  | some i =>
    left
    injection h with h; subst h
    unfold hashFirst at h1
    split at h1
    · simp at h1
    · obtain ⟨_, x, hx, hc⟩ := hashPass_some h1
      exact ⟨by omega, x, by simpa using hx, hc⟩
  | none =>
    simp only at h
    cases hp : plainPass s (n.listFor t) 0 with
    | some i =>
      rw [hp] at h
      injection h with h; subst h
      obtain ⟨_, ⟨x, hx, hc⟩, _⟩ := plainPass_some hp
      left
      exact ⟨by omega, x, by simpa using hx, hc⟩
    | none =>
      rw [hp] at h
      have hno := plainPass_none hp
      right
      simp only at h
      cases hv : n.vector with
      | none =>
        rw [hv] at h; injection h with h
        right
        exact ⟨h.symm, by simpa using hno, by simp⟩
      | some v =>
        rw [hv] at h
        simp only at h
        split at h
        · rename_i hc
          injection h with h
          left
          refine ⟨h.symm, hc.1, ⟨v, rfl, hc.2⟩, ?_⟩
          have : n.listFor t = n.col := by
            rcases hc.1 with h | h <;> subst h <;> simp [listFor]
          rw [this] at hno
          simpa using hno
        · rename_i hc
          injection h with h
          right
          refine ⟨h.symm, by simpa using hno, ?_⟩
          intro ht v' hv' hc'
          cases hv'
          exact hc ⟨ht, hc'⟩

/-- **C02** (completeness and totality for names built through the API). On a structure built by any
sequence of adds, the lookup never misbehaves, and it finds something whenever something matches. -/
theorem C02_find_complete (ops : List (Option CStr × Char)) (s : CStr) (t : Char) :
    let n := (alloc.runAdds ops).1
    ∃ r, n.find (some s) t = .ok r ∧
      ((∃ x ∈ n.listFor t, SameUpToCase s x) → 0 ≤ r) ∧
      ((t = 'c' ∨ t = 'C') → (∃ v, n.vector = some v ∧ SameUpToCase s v) → -1 ≤ r) := by
  intro n
  have hn : Good n := by
    have : ∀ (m : Names), Good m → ∀ ops, Good (m.runAdds ops).1 := by
      intro m hm ops
      induction ops generalizing m with
      | nil => exact hm
      | cons o ops ih => exact ih _ (good_add hm _ _)
    exact this _ good_alloc _
  obtain ⟨r, hr⟩ := find_total hn (some s) t
  refine ⟨r, hr, ?_, ?_⟩
  · rintro ⟨x, hx, hc⟩
    rcases C02_find_sound _ _ _ _ hr with h | h | h
    · exact h.1
    · have : n.listFor t = n.col := by
        rcases h.2.1 with h | h <;> subst h <;> simp [listFor]
      exact absurd hc (h.2.2.2 x (this ▸ hx))
    · exact absurd hc (h.2.1 x hx)
  · rintro ht ⟨v, hv, hc⟩
    rcases C02_find_sound _ _ _ _ hr with h | h | h
    · omega
    · omega
    · exact absurd hc (h.2.2 ht v hv)

/-- A structure whose hash blocks are those `apop_name_add` maintains. Every structure reachable by
adds, stacks and copies is one (`good_add`, `good_stack`, `good_copy`). -/
theorem C02_reachable_good (ops : List (Option CStr × Char)) : Good (alloc.runAdds ops).1 := by
  have : ∀ (m : Names), Good m → ∀ ops, Good (m.runAdds ops).1 := by
    intro m hm ops
    induction ops generalizing m with
    | nil => exact hm
    | cons o ops ih => exact ih _ (good_add hm _ _)
  exact this _ good_alloc _

/-- **C02** (preference). On a structure with hash blocks in step: the result is the first match
that also has the search string's hash, if there is one; otherwise the first match. In particular
an exact match is never lost to a later case variant, and is beaten by an earlier case variant only
if their 64-bit hashes collide. -/
theorem C02_find_preference (n : Names) (hn : Good n) (s : CStr) (t : Char) (i : Nat)
    (h : n.find (some s) t = .ok (i : Int)) :
    (∃ x, (n.listFor t)[i]? = some x ∧ SameUpToCase s x ∧
      ((djb2 x = djb2 s ∧ ∀ j, j < i → ∀ y, (n.listFor t)[j]? = some y → SameUpToCase s y →
          djb2 y ≠ djb2 s) ∨
       ((∀ y ∈ n.listFor t, SameUpToCase s y → djb2 y ≠ djb2 s) ∧
          ∀ j, j < i → ∀ y, (n.listFor t)[j]? = some y → ¬ SameUpToCase s y))) := by
  simp only [sameUpToCase_iff]
  have hg := good_for hn t
  unfold InStep at hg
  unfold find at h
  simp only [Res.bind_eq_ok] at h
  obtain ⟨first, h1, h⟩ := h
  have h1' : hashPass s (n.listFor t) (n.hashFor t) 0 = .ok first := by
    unfold hashFirst at h1
    split at h1
    · rename_i he
      rw [hg] at he ⊢
      simp only [List.isEmpty_map, List.isEmpty_iff] at he
      simpa [he, hashPass] using h1
    · exact h1
  rw [hg] at h1'
  cases first with
  | some r =>
    injection h with h
    have h : r = i := by omega
    subst h
    obtain ⟨⟨x, hx, hh, hc⟩, hmin⟩ := hashPass_some_inStep h1'
    refine ⟨x, by simpa using hx, hc, Or.inl ⟨hh, ?_⟩⟩
    intro j hj y hy hcy he
    exact hmin j (by omega) y hy ⟨he, hcy⟩
  | none =>
    have hnone := hashPass_none_inStep h1'
    simp only at h
    cases hp : plainPass s (n.listFor t) 0 with
    | some r =>
      rw [hp] at h
      injection h with h
      have h : r = i := by omega
      subst h
      obtain ⟨_, ⟨x, hx, hc⟩, hmin⟩ := plainPass_some hp
      refine ⟨x, by simpa using hx, hc, Or.inr ⟨fun y hy hcy he => hnone y hy ⟨he, hcy⟩, ?_⟩⟩
      intro j hj y hy
      simpa using hmin j (by omega) y hy
    | none =>
      rw [hp] at h
      simp only at h
      cases hv : n.vector with
      | none => rw [hv] at h; injection h with h; omega
      | some v =>
        rw [hv] at h
        simp only at h
        split at h <;> (injection h with h; omega)

/-- **C02** (NULL). Searching for NULL gives -2. -/
theorem C02_find_null (n : Names) (t : Char) : n.find none t = .ok (-2) := rfl

/-- The case-sensitive hash really is a preference: "aB" is found past the earlier variant "AB". -/
example : ((alloc.runAdds [(some (str "AB"), 'r'), (some (str "aB"), 'r')]).1).find
    (some (str "aB")) 'r' = .ok 1 := by decide +kernel
example : ((alloc.runAdds [(some (str "AB"), 'r'), (some (str "aB"), 'r')]).1).find
    (some (str "Ab")) 'r' = .ok 0 := by decide +kernel
example : ((alloc.runAdds [(some (str "AB"), 'v'), (some (str "xy"), 'c')]).1).find
    (some (str "ab")) 'c' = .ok (-1) := by decide +kernel
example : Good (alloc.runAdds [(some (str "AB"), 'v'), (some (str "xy"), 'c')]).1 :=
  C02_reachable_good _

/-! ## C03: stacking and copying -/

/-- The list that a (source) type letter denotes. -/
def srcList (n : Names) (ta : Char) : List CStr :=
  if ta = 'r' then n.row else if ta = 't' then n.text else if ta = 'c' then n.col else []

/-- **C03** (stack onto another object). For a source type r/t/c: the source list is appended, in
order, to the target list named by `t1`; nothing else changes. -/
theorem C03_stack_appends (n1 n2 : Names) (t1 ta : Char) (hta : ta = 'r' ∨ ta = 't' ∨ ta = 'c') :
    let m := n1.stack (some n2) (some t1) (some ta)
    let src := srcList n2 ta
    m.row = (if t1 = 'r' then n1.row ++ src else n1.row) ∧
    m.text = (if t1 = 't' then n1.text ++ src else n1.text) ∧
    m.col = (if isCol t1 then n1.col ++ src else n1.col) ∧
    m.vector = (if t1 = 'v' then (src.getLast?).or n1.vector else n1.vector) ∧
    m.title = (if t1 = 'h' then (src.getLast?).or n1.title else n1.title) := by
  have key : n1.stack (some n2) (some t1) (some ta) = n1.addAll (srcList n2 ta) t1 := by
    rcases hta with h | h | h <;> subst h <;> simp [stack, stackTypes, srcList]
  simp only [key]
  by_cases hh : t1 = 'h'
  · subst hh; obtain ⟨a, b, c, d, e⟩ := addAll_of_title (n := n1) (src := srcList n2 ta)
    simp [a, b, c, d, e, isCol]
  by_cases hv : t1 = 'v'
  · subst hv; obtain ⟨a, b, c, d, e⟩ := addAll_of_vector (n := n1) (src := srcList n2 ta)
    simp [a, b, c, d, e, isCol]
  by_cases hr : t1 = 'r'
  · subst hr; obtain ⟨a, b, c, d, e⟩ := addAll_of_row (n := n1) (src := srcList n2 ta)
    simp [a, b, c, d, e, isCol]
  by_cases ht : t1 = 't'
  · subst ht; obtain ⟨a, b, c, d, e⟩ := addAll_of_text (n := n1) (src := srcList n2 ta)
    simp [a, b, c, d, e, isCol]
  obtain ⟨a, b, c, d, e⟩ := addAll_of_col (n := n1) (src := srcList n2 ta) hh hv hr ht
  simp [a, b, c, d, e, isCol, hh, hv, hr, ht]

/-- **C03** (source type v: only the vector name is overwritten, whatever the target type; and only
if the source has one). -/
theorem C03_stack_vector (n1 n2 : Names) (t1 : Option Char) :
    n1.stack (some n2) t1 (some 'v') = { n1 with vector := n2.vector.or n1.vector } := by
  cases hv : n2.vector <;> simp [stack, stackTypes, add, hv]

/-- **C03** (no-ops): NULL source, or a source type other than r/t/c/v. -/
theorem C03_stack_noop (n1 : Names) (t1 ta : Option Char) : n1.stack none t1 ta = n1 := rfl
theorem C03_stack_unknown (n1 n2 : Names) (t1 : Option Char) (ta : Char)
    (h : ta ≠ 'r' ∧ ta ≠ 't' ∧ ta ≠ 'c' ∧ ta ≠ 'v') :
    n1.stack (some n2) t1 (some ta) = n1 := by
  simp [stack, stackTypes, h]

/-- **C03** (defaults): omitted type1 is 'r', omitted typeadd is type1. -/
theorem C03_stack_defaults (n1 n2 : Names) (t1 : Char) :
    n1.stack (some n2) none none = n1.stack (some n2) (some 'r') (some 'r') ∧
    n1.stack (some n2) (some t1) none = n1.stack (some n2) (some t1) (some t1) := ⟨rfl, rfl⟩

/-- **C03** (self-stacking). Stacking an object onto itself reads the saved number of names and gives
the same result as stacking a distinct, equal object, for all list types. -/
theorem C03_stack_self (n : Names) (t1 ta : Option Char) (hv : (stackTypes t1 ta).2 ≠ 'v') :
    n.stackSelf t1 ta = .ok (n.stack (some n) t1 ta) := stackSelf_eq n t1 ta hv

/-- **C03** (finding). Self-stacking the *vector name* reads memory that `realloc` may have freed. -/
theorem C03_stack_self_vector_ub (n : Names) (v : CStr) (h : n.vector = some v) (t1 : Option Char) :
    n.stackSelf t1 (some 'v') = .ub := by
  simp [stackSelf, stackTypes, h]

/-- **C03** (copy). The copy has equal lists and vector name, hash blocks in step, and the same
title -- except that a missing title becomes the string "(null)" (finding). -/
theorem C03_copy (n : Names) :
    n.copy.row = n.row ∧ n.copy.col = n.col ∧ n.copy.text = n.text ∧ n.copy.vector = n.vector ∧
    Good n.copy ∧ (∀ t, n.title = some t → n.copy.title = some t) ∧
    (n.title = none → n.copy.title = some (str "(null)")) := by
  have hs : str "(null)" = [40, 110, 117, 108, 108, 41] := by decide +kernel
  have hv : alloc.stack (some n) (some 'v') none = { alloc with vector := n.vector } := by
    have := C03_stack_vector alloc n (some 'v')
    simp only [(C03_stack_defaults alloc n 'v').2, this]; simp [alloc]
  have e : n.copy = { ((((({ alloc with vector := n.vector } : Names).addAll n.col 'c').addAll
      n.row 'r').addAll n.text 't')) with title := some (printS n.title) } := by
    simp only [copy, hv]; simp [stack, stackTypes]
  obtain ⟨a1, a2, a3, a4, -⟩ := addAll_of_text (n := ((({ alloc with vector := n.vector } : Names).addAll
      n.col 'c').addAll n.row 'r')) (src := n.text)
  obtain ⟨b1, b2, b3, b4, -⟩ := addAll_of_row (n := (({ alloc with vector := n.vector } : Names).addAll
      n.col 'c')) (src := n.row)
  obtain ⟨c1, c2, c3, c4, -⟩ := addAll_of_col (n := ({ alloc with vector := n.vector } : Names))
      (src := n.col) (t := 'c') (by decide) (by decide) (by decide) (by decide)
  refine ⟨?_, ?_, ?_, ?_, good_copy n, ?_, ?_⟩
  · rw [e]; simp only [a3, b1, c2]; simp [alloc]
  · rw [e]; simp only [a2, b2, c1]; simp [alloc]
  · rw [e]; simp only [a1, b3, c3]; simp [alloc]
  · rw [e]; simp only [a4, b4, c4]
  · intro t ht; simp [copy, ht, printS]
  · intro ht; simp [copy, ht, printS, hs]

/-- **C03** (lookups agree). Every lookup on the copy equals the lookup on the original. -/
theorem C03_copy_lookup (n : Names) (hn : Good n) (s : Option CStr) (t : Char) :
    n.copy.find s t = n.find s t := by
  obtain ⟨h1, h2, h3, h4, h5, -⟩ := C03_copy n
  obtain ⟨g1, g2, g3⟩ := hn
  obtain ⟨k1, k2, k3⟩ := h5
  unfold InStep at *
  unfold find hashFirst listFor hashFor
  rw [k1, k2, k3, g1, g2, g3, h1, h2, h3, h4]

example : ((alloc.runAdds [(some (str "x"), 'r'), (some (str "T"), 'h')]).1).copy.title
    = some (str "T") := by decide +kernel
example : (alloc.stackSelf none none) = .ok alloc := by decide
example : ((alloc.runAdds [(some [65], 'r'), (some [66], 'r')]).1.stackSelf (some 'c') (some 'r')).map
    Names.col = .ok [[65], [66]] := by decide +kernel

end Apop.Names
