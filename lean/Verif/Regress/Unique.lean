import Verif.Base.C
import Mathlib.Data.List.Sort
import Mathlib.Order.Basic
import Mathlib.Tactic.SplitIfs

/-! # C83: sorted lists of the distinct elements -/

namespace Apop.Uniq

/-! ## The models -/

/-- `compare_doubles`, apop_regression.m4.c:38-44; `none` is NaN. -/
def cmpDoubles {α : Type} [LT α] [DecidableRel (α := α) (· < ·)] : Option α → Option α → Int
  | none, none => 0
  | none, some _ => 1
  | some _, none => -1
  | some a, some b => (if b < a then 1 else 0) - (if a < b then 1 else 0)

/-- `strcmp` (C library), which `strcmpwrap`, apop_regression.m4.c:47-51, calls: by unsigned bytes. -/
def strcmp : CStr → CStr → Int
  | [], [] => 0
  | [], _ :: _ => -1
  | _ :: _, [] => 1
  | a :: as, b :: bs => if a.toNat < b.toNat then -1 else if b.toNat < a.toNat then 1 else strcmp as bs

/-- `lsearch` (C library): the first equal element, or the key is added at the end, for which there must be room. -/
def lsearch {β : Type} (cmp : β → β → Int) (key : β) (elmts : List β) (cap : Nat) : Res (List β) :=
  if elmts.any (fun e => cmp key e == 0) then .ok elmts
  else if elmts.length < cap then .ok (elmts ++ [key]) else .ub

/-- What the loop of `apop_vector_unique_elements` holds: the elements, `prior_elmt_ctr`, and the room in the block. -/
structure VS (β : Type) where
  elmts : List β
  prior : Nat
  cap : Nat

/-- One turn, apop_regression.m4.c:66-73. `sort` is `qsort`. -/
def vecStep {β : Type} (cmp : β → β → Int) (sort : List β → List β) (s : VS β) (val : β) : Res (VS β) :=
  (lsearch cmp val s.elmts (if s.prior ≠ s.elmts.length then s.elmts.length + 1 else s.cap)).bind fun e =>
    .ok ⟨if s.elmts.length < e.length then sort e else e, s.elmts.length, if s.prior ≠ s.elmts.length then s.elmts.length + 1 else s.cap⟩

/-- The loop. -/
def vecLoop {β : Type} (cmp : β → β → Int) (sort : List β → List β) : VS β → List β → Res (VS β)
  | s, [] => .ok s
  | s, v :: vs => (vecStep cmp sort s v).bind fun s' => vecLoop cmp sort s' vs

/-- `apop_vector_unique_elements`, apop_regression.m4.c:61-78, as the list that goes into the output (from no elements: no vector). -/
def vectorUnique {β : Type} (cmp : β → β → Int) (sort : List β → List β) (v : List β) : Res (List β) :=
  (vecLoop cmp sort ⟨[], 107, 0⟩ v).bind fun s => .ok s.elmts

/-- One turn of `apop_text_unique_elements`, apop_regression.m4.c:98-105. -/
def textStep {β : Type} (cmp : β → β → Int) (sort : List β → List β) (s : List β × Nat) (val : β) : Res (List β × Nat) :=
  (lsearch cmp val s.1 s.2).bind fun e => if s.1.length < e.length then .ok (sort e, e.length + 1) else .ok (e, s.2)

def textLoop {β : Type} (cmp : β → β → Int) (sort : List β → List β) : List β × Nat → List β → Res (List β × Nat)
  | s, [] => .ok s
  | s, v :: vs => (textStep cmp sort s v).bind fun s' => textLoop cmp sort s' vs

/-- `apop_text_unique_elements`, apop_regression.m4.c:89-113, on the column of text. The strings are copied by `apop_text_set`, to which they are formats (C10): taken here to have no percent signs. -/
def textUnique {β : Type} (cmp : β → β → Int) (sort : List β → List β) : List β → Res (List β)
  | [] => .ub
  | t :: ts => (textLoop cmp sort ([t], 2) ts).bind fun s => .ok s.1

/-! ## Specification -/

/-- What a comparison function has to be: a strict order by its sign, and zero at equality only. -/
structure CmpOk {β : Type} (cmp : β → β → Int) : Prop where
  eq : ∀ a b, cmp a b = 0 ↔ a = b
  flip : ∀ a b, cmp a b < 0 ↔ 0 < cmp b a
  trans : ∀ a b c, cmp a b < 0 → cmp b c < 0 → cmp a c < 0

/-- What `qsort` does: the same elements, in order. -/
def Sorts {β : Type} (cmp : β → β → Int) (sort : List β → List β) : Prop := ∀ l, (sort l).Perm l ∧ (sort l).Pairwise fun a b => cmp a b ≤ 0

/-- The elements of the list, each once, in strictly increasing order. -/
def DistinctSorted {β : Type} (cmp : β → β → Int) (l out : List β) : Prop := (out.Pairwise fun a b => cmp a b < 0) ∧ ∀ x, x ∈ out ↔ x ∈ l

/-! ## Proofs -/

/-- The comparison of doubles is an order, with NaN last. -/
theorem C83_doubles {α : Type} [LinearOrder α] : CmpOk (cmpDoubles (α := α)) ∧ ∀ a : α, cmpDoubles (some a) none < 0 := by
  refine ⟨⟨?_, ?_, ?_⟩, fun a => by simp [cmpDoubles]⟩
  · rintro (_ | a) (_ | b) <;> simp [cmpDoubles]
    constructor
    · intro h
      split_ifs at h with h1 h2 h2
      · exact absurd h1 (lt_asymm h2)
      · omega
      · omega
      · exact le_antisymm (not_lt.1 h1) (not_lt.1 h2)
    · rintro rfl; simp
  · rintro (_ | a) (_ | b) <;> simp [cmpDoubles]
    split_ifs with h1 h2 h2
    · exact absurd h1 (lt_asymm h2)
    · omega
    · omega
    · omega
  · rintro (_ | a) (_ | b) (_ | c) <;> simp [cmpDoubles]
    have key : ∀ x y : α, ((if y < x then (1 : Int) else 0) - (if x < y then 1 else 0) < 0) ↔ x < y := by
      intro x y
      split_ifs with h1 h2 h2
      · exact absurd h1 (lt_asymm h2)
      · simp [h2]
      · simp [h2]
      · simp [h2]
    intro h1 h2
    exact (key a c).2 (lt_trans ((key a b).1 h1) ((key b c).1 h2))

theorem strcmp_eq (a : CStr) : ∀ b, strcmp a b = 0 ↔ a = b := by
  induction a with
  | nil => intro b; cases b <;> simp [strcmp]
  | cons x a ih =>
    intro b
    cases b with
    | nil => simp [strcmp]
    | cons y b =>
      unfold strcmp
      split_ifs with h1 h2
      · simp; rintro rfl; omega
      · simp; rintro rfl; omega
      · have : x = y := UInt8.toNat_inj.1 (by omega)
        simp [ih b, this]

theorem strcmp_flip (a : CStr) : ∀ b, strcmp a b < 0 ↔ 0 < strcmp b a := by
  induction a with
  | nil => intro b; cases b <;> simp [strcmp]
  | cons x a ih =>
    intro b
    cases b with
    | nil => simp [strcmp]
    | cons y b =>
      unfold strcmp
      split_ifs with h1 h2 h3
      · omega
      · simp
      · simp
      · exact ih b

theorem strcmp_trans (a : CStr) : ∀ b c, strcmp a b < 0 → strcmp b c < 0 → strcmp a c < 0 := by
  induction a with
  | nil => intro b c; cases b <;> cases c <;> simp [strcmp]
  | cons x a ih =>
    intro b c
    cases b with
    | nil => simp [strcmp]
    | cons y b =>
      cases c with
      | nil => simp [strcmp]
      | cons z c =>
        unfold strcmp
        intro h1 h2
        split_ifs at h1 h2 ⊢ with g1 g2 g3 g4 g5 g6 <;> first | omega | exact ih b c h1 h2

/-- The comparison of strings is an order. -/
theorem C83_strings : CmpOk strcmp := ⟨strcmp_eq, strcmp_flip, strcmp_trans⟩

variable {β : Type} {cmp : β → β → Int} {sort : List β → List β}

theorem sorted_strict (hc : CmpOk cmp) (hs : Sorts cmp sort) {l : List β} (hn : l.Nodup) : (sort l).Pairwise fun a b => cmp a b < 0 := by
  obtain ⟨h1, h2⟩ := hs l
  have hn' : (sort l).Nodup := h1.nodup_iff.2 hn
  have := h2.and hn'
  refine this.imp ?_
  intro a b ⟨h3, h4⟩
  have : cmp a b ≠ 0 := fun h => h4 ((hc.eq a b).1 h)
  omega

theorem strict_nodup (hc : CmpOk cmp) {l : List β} (h : l.Pairwise fun a b => cmp a b < 0) : l.Nodup := by
  refine h.imp ?_
  rintro a b hab rfl
  rw [(hc.eq a a).2 rfl] at hab
  omega

/-- What `lsearch` then `qsort` makes of a sorted list of distinct elements. -/
theorem add_spec (hc : CmpOk cmp) (hs : Sorts cmp sort) {l : List β} (h : l.Pairwise fun a b => cmp a b < 0) (val : β) (cap : Nat) (hcap : l.length < cap) :
    ∃ e, lsearch cmp val l cap = .ok e ∧ (e = l ∨ e.length = l.length + 1) ∧ ((if l.length < e.length then sort e else e).Pairwise fun a b => cmp a b < 0) ∧
      (∀ x, x ∈ (if l.length < e.length then sort e else e) ↔ x ∈ l ∨ x = val) ∧ (if l.length < e.length then sort e else e).length = e.length := by
  by_cases hv : val ∈ l
  · refine ⟨l, ?_, Or.inl rfl, ?_, ?_, ?_⟩
    · rw [lsearch, if_pos]
      simp only [List.any_eq_true, beq_iff_eq]
      exact ⟨val, hv, (hc.eq _ _).2 rfl⟩
    · simpa using h
    · intro x
      simp
      rintro rfl; exact hv
    · simp
  · refine ⟨l ++ [val], ?_, Or.inr (by simp), ?_, ?_, ?_⟩
    · rw [lsearch, if_neg, if_pos hcap]
      simp only [List.any_eq_true, beq_iff_eq, not_exists, not_and]
      intro x hx h0
      rw [(hc.eq _ _).1 h0] at hv
      exact hv hx
    · rw [if_pos (by simp)]
      apply sorted_strict hc hs
      rw [List.nodup_append]
      refine ⟨strict_nodup hc h, by simp, ?_⟩
      simp only [List.mem_singleton]
      rintro a ha b rfl rfl
      exact hv ha
    · intro x
      rw [if_pos (by simp), (hs _).1.mem_iff]
      simp
    · rw [if_pos (by simp), (hs _).1.length_eq]

/-- What holds at every turn of the vector's loop. -/
structure VInv (cmp : β → β → Int) (s : VS β) : Prop where
  sorted : s.elmts.Pairwise fun a b => cmp a b < 0
  room : s.prior ≠ s.elmts.length ∨ s.elmts.length < s.cap

theorem vecStep_spec (hc : CmpOk cmp) (hs : Sorts cmp sort) (s : VS β) (h : VInv cmp s) (val : β) :
    ∃ s', vecStep cmp sort s val = .ok s' ∧ VInv cmp s' ∧ ∀ x, x ∈ s'.elmts ↔ x ∈ s.elmts ∨ x = val := by
  have hcap : s.elmts.length < (if s.prior ≠ s.elmts.length then s.elmts.length + 1 else s.cap) := by
    have := h.room
    split_ifs with h1
    · omega
    · omega
  obtain ⟨e, e1, e2, e3, e4, e5⟩ := add_spec hc hs h.sorted val _ hcap
  refine ⟨_, by rw [vecStep, e1]; rfl, ⟨e3, ?_⟩, e4⟩
  dsimp only
  rw [e5]
  rcases e2 with rfl | e2
  · exact Or.inr hcap
  · exact Or.inl (by omega)

theorem vecLoop_spec (hc : CmpOk cmp) (hs : Sorts cmp sort) (v : List β) : ∀ s : VS β, VInv cmp s →
    ∃ s', vecLoop cmp sort s v = .ok s' ∧ VInv cmp s' ∧ ∀ x, x ∈ s'.elmts ↔ x ∈ s.elmts ∨ x ∈ v := by
  induction v with
  | nil => intro s h; exact ⟨s, rfl, h, by simp⟩
  | cons a v ih =>
    intro s h
    obtain ⟨s1, e1, e2, e3⟩ := vecStep_spec hc hs s h a
    obtain ⟨s2, g1, g2, g3⟩ := ih s1 e2
    refine ⟨s2, by rw [vecLoop, e1]; exact g1, g2, ?_⟩
    intro x
    rw [g3, e3, List.mem_cons]
    tauto

/-- **C83 (vectors).** For any vector the function ends without leaving its block, with the distinct elements in increasing order. -/
theorem C83_vector (hc : CmpOk cmp) (hs : Sorts cmp sort) (v : List β) : ∃ out, vectorUnique cmp sort v = .ok out ∧ DistinctSorted cmp v out := by
  obtain ⟨s, e1, e2, e3⟩ := vecLoop_spec hc hs v ⟨[], 107, 0⟩ ⟨by simp, Or.inl (by simp)⟩
  exact ⟨s.elmts, by rw [vectorUnique, e1]; rfl, e2.sorted, by simpa using e3⟩

theorem textLoop_spec (hc : CmpOk cmp) (hs : Sorts cmp sort) (v : List β) : ∀ s : List β × Nat, (s.1.Pairwise fun a b => cmp a b < 0) → s.1.length < s.2 →
    ∃ s', textLoop cmp sort s v = .ok s' ∧ (s'.1.Pairwise fun a b => cmp a b < 0) ∧ ∀ x, x ∈ s'.1 ↔ x ∈ s.1 ∨ x ∈ v := by
  induction v with
  | nil => intro s h _; exact ⟨s, rfl, h, by simp⟩
  | cons a v ih =>
    intro s h hcap
    obtain ⟨e, e1, e2, e3, e4, e5⟩ := add_spec hc hs h a s.2 hcap
    have step : ∃ s1, textStep cmp sort s a = .ok s1 ∧ (s1.1.Pairwise fun a b => cmp a b < 0) ∧ s1.1.length < s1.2 ∧ ∀ x, x ∈ s1.1 ↔ x ∈ s.1 ∨ x = a := by
      by_cases hl : s.1.length < e.length
      · rw [if_pos hl] at e3 e4 e5
        refine ⟨(sort e, e.length + 1), ?_, e3, ?_, e4⟩
        · rw [textStep, e1]; simp [Res.bind, hl]
        · simp [e5]
      · rw [if_neg hl] at e3 e4 e5
        have : e = s.1 := by rcases e2 with h | h; exact h; omega
        refine ⟨(e, s.2), ?_, e3, ?_, e4⟩
        · rw [textStep, e1]; simp [Res.bind, hl]
        · simpa [this] using hcap
    obtain ⟨s1, f1, f2, f3, f4⟩ := step
    obtain ⟨s2, g1, g2, g3⟩ := ih s1 f2 f3
    refine ⟨s2, by rw [textLoop, f1]; exact g1, g2, ?_⟩
    intro x
    rw [g3, f4, List.mem_cons]
    tauto

/-- **C83 (text).** The same of a column of text with at least one row. -/
theorem C83_text (hc : CmpOk cmp) (hs : Sorts cmp sort) (v : List β) (hv : v ≠ []) : ∃ out, textUnique cmp sort v = .ok out ∧ DistinctSorted cmp v out := by
  cases v with
  | nil => exact absurd rfl hv
  | cons t ts =>
    obtain ⟨s, e1, e2, e3⟩ := textLoop_spec hc hs ts ([t], 2) (by simp) (by simp)
    exact ⟨s.1, by rw [textUnique, e1]; rfl, e2, by simpa using e3⟩

/-- **C83 (one answer).** There is only one such list: whatever `qsort` is, and whatever the order of the input and its repetitions, sets with the same elements give the same answer. -/
theorem C83_unique (hc : CmpOk cmp) {v w out out' : List β} (hvw : ∀ x, x ∈ v ↔ x ∈ w) (h : DistinctSorted cmp v out) (h' : DistinctSorted cmp w out') : out = out' := by
  have hp : out.Perm out' := (List.perm_ext_iff_of_nodup (strict_nodup hc h.1) (strict_nodup hc h'.1)).2 fun x => by rw [h.2, h'.2, hvw]
  refine List.Perm.eq_of_pairwise ?_ h.1 h'.1 hp
  intro a b _ _ h1 h2
  have := (hc.flip a b).1 h1
  omega

/-- **Beside C83.** A text column without rows is read before its first row. -/
theorem C83_no_rows_refuted : textUnique cmp sort [] = .ub := rfl

/-- A sort that meets the hypothesis: insertion by the comparison. -/
def insertSort (cmp : β → β → Int) (l : List β) : List β := l.insertionSort fun a b => cmp a b ≤ 0

theorem insertSort_sorts (hc : CmpOk cmp) : Sorts cmp (insertSort cmp) := by
  intro l
  have : Std.Total fun a b => cmp a b ≤ 0 := ⟨by
    intro a b
    rcases lt_trichotomy (cmp a b) 0 with h | h | h
    · exact Or.inl h.le
    · exact Or.inl h.le
    · exact Or.inr ((hc.flip b a).2 h).le⟩
  have : IsTrans β fun a b => cmp a b ≤ 0 := ⟨by
    intro a b c h1 h2
    rcases lt_or_eq_of_le h1 with h1 | h1
    · rcases lt_or_eq_of_le h2 with h2 | h2
      · exact (hc.trans a b c h1 h2).le
      · rw [(hc.eq b c).1 h2] at h1; exact h1.le
    · rw [(hc.eq a b).1 h1]; exact h2⟩
  exact ⟨List.perm_insertionSort _ _, List.pairwise_insertionSort _ _⟩

/-- Numbers with a NaN and repetitions. -/
example : vectorUnique (cmpDoubles (α := ℤ)) (insertSort cmpDoubles) [some 3, none, some 1, some 3, none] = .ok [some 1, some 3, none] := by decide +kernel

end Apop.Uniq
