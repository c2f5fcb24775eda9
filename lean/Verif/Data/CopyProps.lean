import Verif.Data.CopyLemmas

/-! # C04 (copy), C06 (allocation), C40 (memcpy) -/

namespace Apop.Page
variable {α : Type}

/-! ## C04

`apop_data_copy` should give an equal data set. It does so for every numeric and text part and for
the row, column and text names, on every page. It fails in two places, both visible to users and
proved below: the *vector name* is always lost, and a missing title becomes the string "(null)".
The theorem below says what is kept. -/

/-- Two name structures agree on the three lists. -/
def SameLists (a b : Names) : Prop := a.row = b.row ∧ a.col = b.col ∧ a.text = b.text

/-- **C04** (vector name and missing title excepted). For every chain of well-formed pages
without error flags, whatever the uninitialised memory holds, the copy has as many pages, and each
page has the same vector, matrix, weights, text grid and dimensions, no error, the same row, column
and text names (with usable hashes), and the same title if there was one. -/
theorem C04_copy (junk : α) (ps : List (Page α)) (hwf : ∀ p ∈ ps, p.WF)
    (he : ∀ p ∈ ps, p.error = none) :
    ∃ qs, copy junk ps = .ok qs ∧ qs.length = ps.length ∧
      ∀ (k : Nat) p q, ps[k]? = some p → qs[k]? = some q →
        q.vector = p.vector ∧ q.matrix = p.matrix ∧ q.weights = p.weights ∧ q.text = p.text ∧
        q.textsize = p.textsize ∧ q.error = none ∧
        (∀ n, p.names = some n → ∃ m, q.names = some m ∧ SameLists m n ∧ m.Good ∧
          ∀ t, n.title = some t → m.title = some t) := by
  refine ⟨ps.map copyOf, copy_eq junk ps hwf he, by simp, ?_⟩
  intro k p q hp hq
  rw [List.getElem?_map, hp] at hq
  simp only [Option.map_some, Option.some.injEq] at hq
  subst hq
  refine ⟨rfl, rfl, rfl, rfl, rfl, rfl, ?_⟩
  intro n hn
  obtain ⟨h1, h2, h3, h4, h5, h6⟩ := copyNames_lists n
  refine ⟨copyNames n, by simp [copyOf, hn], ⟨h1, h2, h3⟩, h6, ?_⟩
  intro t ht; simp [h5, Names.printS, ht]

/-- **C04** (finding): the copy never has a vector name, whatever the original had. -/
theorem C04_copy_loses_vector_name (junk : α) (ps : List (Page α)) (hwf : ∀ p ∈ ps, p.WF)
    (he : ∀ p ∈ ps, p.error = none) :
    ∃ qs, copy junk ps = .ok qs ∧ ∀ q ∈ qs, ∀ n, q.names = some n → n.vector = none := by
  refine ⟨ps.map copyOf, copy_eq junk ps hwf he, ?_⟩
  intro q hq n hn
  obtain ⟨p, -, rfl⟩ := List.mem_map.1 hq
  simp only [copyOf] at hn
  cases hpn : p.names with
  | none => rw [hpn] at hn; cases hn; rfl
  | some m => rw [hpn] at hn; cases hn; exact (copyNames_lists m).2.2.2.1

/-- **C04** (finding): a page without a title gets the title "(null)". -/
theorem C04_copy_null_title (junk : α) (p : Page α) (n : Names) (hwf : p.WF)
    (he : p.error = none) (hn : p.names = some n) (ht : n.title = none) :
    ∃ q m, copy junk [p] = .ok [q] ∧ q.names = some m ∧ m.title = some (str "(null)") := by
  have hs : str "(null)" = [40, 110, 117, 108, 108, 41] := by decide +kernel
  refine ⟨copyOf p, copyNames n, copy_eq junk [p] (by simpa using hwf) (by simpa using he),
    by simp [copyOf, hn], ?_⟩
  rw [(copyNames_lists n).2.2.2.2.1, ht, hs]; rfl

/-- **C04** (finding): if some *later* page carries an error flag, the first page of the copy is
empty: only the flag is copied ("If the input data set has an error, then I will copy it anyway" in
the documentation). -/
theorem C04_copy_error_on_later_page :
    let p : Page Nat := { vector := some [1, 2], names := some Names.alloc }
    let q : Page Nat := { vector := some [3], names := some Names.alloc, error := some 'd' }
    ∃ q', copy 0 [p, q] = .ok [{ (empty : Page Nat) with error := some 'd' }, q'] := by
  exact ⟨_, rfl⟩

/-- **C04** (finding): a page with both an error flag and a text grid is returned with its numeric
parts uninitialised (the copy is abandoned after allocation). -/
theorem C04_copy_error_with_text (junk : α) (p : Page α) (e : Char) (he : p.error = some e)
    (ht : p.textsize.1 ≠ 0 ∧ p.textsize.2 ≠ 0) (x : List α) (hx : p.vector = some x) :
    ∃ q, copy junk [p] = .ok [q] ∧ q.vector = some (List.replicate x.length junk) := by
  refine ⟨copyShell junk p, ?_, by simp [copyShell, hx]⟩
  simp [copy, he, ht]

/-- A two-page data set with every part present: the hypotheses of C04 are met. -/
def demoPage : Page Nat :=
  { vector := some [1, 2], matrix := some ⟨[[1, 2, 3], [4, 5, 6]], 3⟩, weights := some [7, 8]
    text := [[str "a"], [str "b"]], textsize := (2, 1)
    names := some ((Names.alloc.add (some (str "T")) 'h').1.add (some (str "r0")) 'r').1 }

theorem demoPage_wf : demoPage.WF := by
  refine ⟨?_, ⟨by decide +kernel, by decide +kernel⟩, by decide +kernel⟩
  intro m hm
  cases hm
  decide

example : (∀ p ∈ [demoPage, demoPage], p.WF) ∧ ∀ p ∈ [demoPage, demoPage], p.error = none := by
  constructor
  · intro p hp; simp at hp; subst hp; exact demoPage_wf
  · intro p hp; simp at hp; subst hp; rfl

example : ∃ p : Page Nat, p.WF ∧ p.error = none ∧ ∃ n, p.names = some n ∧ n.title = none := by
  refine ⟨empty, ?_, rfl, Names.alloc, rfl, rfl⟩
  exact ⟨by simp [empty], ⟨by simp [empty], by simp [empty]⟩, by simp [empty]⟩

/-! ## C06 -/

/-- Specification of the shape: a zero-sized vector is absent, as is a matrix with a nonpositive
dimension. -/
def hasShape (p : Page α) (v r : Nat) (c : Int) : Prop :=
  (p.vector.map List.length = if v = 0 then none else some v) ∧
  (p.matrix.map (fun m => (m.size1, m.cols)) = if r = 0 ∨ c ≤ 0 then none else some (r, c.toNat)) ∧
  (∀ m, p.matrix = some m → m.WF) ∧
  p.weights = none ∧ p.text = [] ∧ p.textsize = (0, 0) ∧ p.error = none ∧ p.names = some Names.alloc

theorem toInt32_small {x : Nat} (h : x < 2 ^ 31) : toInt32 x = x := by
  unfold toInt32
  have h1 : x % 2 ^ 32 = x := Nat.mod_eq_of_lt (by omega)
  simp only [h1, h, if_true]

/-- **C06.** The calling forms `(v, r, c)`, `(r, c)` and `(v)` (omitted arguments are 0; `()` is `v = 0`):
every form with (matrix) sizes that fit in an int gives exactly the shape it
asks for -- zero and negative sizes included, and nothing else is allocated. -/
theorem C06_alloc_shape (junk : α) :
    (∀ v r (c : Int), c ≠ 0 → hasShape (allocWith junk v r c) v r c) ∧
    (∀ r c, c < 2 ^ 31 → c ≠ 0 → hasShape (allocWith junk r c 0) 0 r c) ∧
    (∀ v, hasShape (allocWith junk v 0 0) v 0 0) := by
  have key : ∀ (a b : Nat) (c : Int) v r (k : Int), allocSizes a b c = (v, r, k) →
      hasShape (allocWith junk a b c) v r k := by
    intro a b c v r k h
    unfold allocWith hasShape
    rw [h]
    refine ⟨?_, ?_, ?_, rfl, rfl, rfl, rfl, rfl⟩
    · by_cases hv : v = 0 <;> simp [hv]
    · by_cases hk : r = 0 ∨ k ≤ 0
      · have : ¬ (0 < k ∧ 0 < r) := by omega
        simp [hk, this]
      · have : 0 < k ∧ 0 < r := by omega
        simp [hk, this, Mat.fresh, Mat.size1]
    · intro m hm
      dsimp only at hm
      split at hm
      · cases hm; intro row hrow; simp [Mat.fresh] at hrow; simp [Mat.fresh, hrow]
      · cases hm
  refine ⟨?_, ?_, ?_⟩
  · intro v r c hc; exact key _ _ _ _ _ _ (by simp [allocSizes, hc])
  · intro r c hc h0; exact key _ _ _ _ _ _ (by simp [allocSizes, h0, toInt32_small hc])
  · intro v; exact key _ _ _ _ _ _ (by simp [allocSizes])

/-- **C06** (calloc): every cell is zero. -/
theorem C06_calloc_zero (s1 s2 : Nat) (s3 : Int) :
    (∀ v, (allocWith (0 : Int) s1 s2 s3).vector = some v → ∀ x ∈ v, x = 0) ∧
    (∀ m, (allocWith (0 : Int) s1 s2 s3).matrix = some m → ∀ r ∈ m.rows, ∀ x ∈ r, x = 0) := by
  unfold allocWith
  simp only
  constructor
  · intro v hv
    split at hv
    · cases hv; intro x hx; exact (List.mem_replicate.1 hx).2
    · cases hv
  · intro m hm
    split at hm
    · cases hm; intro r hr x hx
      rw [(List.mem_replicate.1 hr).2] at hx
      exact (List.mem_replicate.1 hx).2
    · cases hm

/-- **C06** (finding): a 5 x 2^32 matrix silently becomes no matrix at all (size2 is narrowed to an
int). -/
theorem C06_narrowing (junk : α) : (allocWith junk 5 (2 ^ 32) 0).matrix = none := by
  simp [allocWith, allocSizes, toInt32]

example : hasShape (allocWith 0 2 3 (4 : Int)) 2 3 4 := (C06_alloc_shape 0).1 2 3 4 (by decide)
example : hasShape (allocWith 0 2 3 (-4 : Int)) 2 3 (-4) := (C06_alloc_shape 0).1 2 3 (-4) (by decide)

/-! ## C40 -/

/-- Dimensions of the three numeric parts, as the documentation of apop_data_memcpy speaks of them. -/
def dims (p : Page α) : Option (Nat × Nat) × Option Nat × Option Nat :=
  (p.matrix.map (fun m => (m.size1, m.cols)), p.vector.map List.length, p.weights.map List.length)

/-- A part present in the source is present in the target with the same size. -/
def Fits {β : Type} (inn out : Option β) : Prop := ∀ a, inn = some a → out = some a

theorem partError_none {β γ : Type} [DecidableEq γ] (inn out : Option β) (sz : β → γ)
    (same : β → β → Bool) (hs : ∀ a b, same a b = true ↔ sz a = sz b) :
    partError inn out same = none ↔ Fits (inn.map sz) (out.map sz) := by
  cases inn with
  | none => simp [partError, Fits]
  | some a =>
    cases out with
    | none => simp [partError, Fits]
    | some b =>
      simp only [partError, Fits, Option.map_some, Option.some.injEq]
      by_cases h : same a b = true
      · simp [h, (hs a b).1 h]
      · simp only [h]
        simp only [Bool.false_eq_true, if_false, reduceCtorEq, false_iff]
        intro h'
        exact h ((hs a b).2 (h' _ rfl).symm)

/-- The text grid of the source fits in the grid *allocated* in the target. -/
def GridFits (inn out : Page α) : Prop :=
  inn.text.length ≤ out.text.length ∧
  ∀ (k : Nat) r g, inn.text[k]? = some r → out.text[k]? = some g → r.length ≤ g.length

/-- **C40** (the text grid is assumed to fit, see `C40_text_overflow`). If every numeric
part of the source has a counterpart of the same size, everything is copied: numeric parts, text
cells (cells outside the source grid keep their content) and dimensions; parts absent from the
source are kept and the error flag is left alone. -/
theorem C40_memcpy (out inn : Page α) (hin : inn.TextWF)
    (hm : Fits (dims inn).1 (dims out).1) (hv : Fits (dims inn).2.1 (dims out).2.1)
    (hw : Fits (dims inn).2.2 (dims out).2.2) (hg : GridFits inn out) :
    ∃ o, memcpyPage out inn = .ok (o, true) ∧
      o.matrix = inn.matrix.or out.matrix ∧ o.vector = inn.vector.or out.vector ∧
      o.weights = inn.weights.or out.weights ∧ o.error = out.error ∧ o.textsize = inn.textsize ∧
      (∀ i j, (o.text[i]?.bind (·[j]?)) =
        if i < inn.textsize.1 ∧ j < inn.textsize.2 then (inn.text[i]?.bind (·[j]?))
        else (out.text[i]?.bind (·[j]?))) := by
  have e1 := (partError_none inn.matrix out.matrix (fun m : Mat α => (m.size1, m.cols))
    (fun a b => a.size1 == b.size1 && a.cols == b.cols) (by simp)).2 hm
  have e2 := (partError_none inn.vector out.vector List.length
    (fun a b => a.length == b.length) (by simp)).2 hv
  have e3 := (partError_none inn.weights out.weights List.length
    (fun a b => a.length == b.length) (by simp)).2 hw
  obtain ⟨ht1, ht2⟩ := hin
  unfold memcpyPage
  simp only [e1, e2, e3]
  by_cases hz : inn.textsize.1 ≠ 0 ∧ inn.textsize.2 ≠ 0
  · have ht : ∀ x : Page α, x.text = out.text → copyText x.text 0 inn.text =
        .ok (List.zipWith overlay inn.text out.text ++ out.text.drop inn.text.length) := by
      intro x hx
      rw [hx, copyText_eq out.text inn.text 0 (by simpa using hg.1)
        (by intro k r g hk hg'; exact hg.2 k r g hk (by simpa using hg'))]
      simp
    have cells : ∀ i j : Nat,
        (((List.zipWith overlay inn.text out.text ++ out.text.drop inn.text.length)[i]?).bind (·[j]?))
        = if i < inn.textsize.1 ∧ j < inn.textsize.2 then (inn.text[i]?.bind (·[j]?))
          else (out.text[i]?.bind (·[j]?)) := by
      intro i j
      have hlen : (List.zipWith overlay inn.text out.text).length = inn.text.length := by
        simp [Nat.min_eq_left hg.1]
      by_cases hi : i < inn.text.length
      · have hi' : i < out.text.length := Nat.lt_of_lt_of_le hi hg.1
        have hr : inn.text[i].length = inn.textsize.2 := ht2 _ (List.getElem_mem _)
        rw [List.getElem?_append_left (by omega), List.getElem?_zipWith]
        simp only [List.getElem?_eq_getElem hi, List.getElem?_eq_getElem hi', Option.bind_some,
          overlay]
        rw [← ht1]
        simp only [hi, true_and]
        split
        · rw [List.getElem?_append_left (by omega)]
        · rw [List.getElem?_append_right (by omega), List.getElem?_drop]
          congr 1; omega
      · have h2 : ¬ (i < inn.textsize.1 ∧ j < inn.textsize.2) := by omega
        rw [if_neg h2, List.getElem?_append_right (by omega), hlen, List.getElem?_drop]
        congr 2; omega
    simp only [ne_eq, hz.1, hz.2, not_false_eq_true, and_self, if_true]
    cases hn : inn.names with
    | none =>
      simp only [Nat.lt_irrefl, or_self, if_false]
      rw [ht _ rfl]
      exact ⟨_, rfl, rfl, rfl, rfl, rfl, rfl, cells⟩
    | some n =>
      simp only [Nat.lt_irrefl, or_self, if_false]
      rw [ht _ rfl]
      exact ⟨_, rfl, rfl, rfl, rfl, rfl, rfl, cells⟩
  · simp only [hz, if_false]
    refine ⟨_, rfl, ?_⟩
    have hno : ∀ i j, ¬ (i < inn.textsize.1 ∧ j < inn.textsize.2) := by intro i j; omega
    cases hn : inn.names <;> simp [hno]

/-- **C40** (errors): if some numeric part is missing or of another size, the call returns with the
error set: to 'p' if the first offending part (in the order matrix, vector, weights) is missing in
the target, to 'd' if its size differs; the text and names are untouched. -/
theorem C40_memcpy_errors (out inn : Page α)
    (h : ¬ (Fits (dims inn).1 (dims out).1 ∧ Fits (dims inn).2.1 (dims out).2.1 ∧
      Fits (dims inn).2.2 (dims out).2.2)) :
    ∃ o, memcpyPage out inn = .ok (o, false) ∧ o.text = out.text ∧ o.textsize = out.textsize ∧
      o.names = out.names ∧
      (o.error = some 'p' ∨ o.error = some 'd') ∧
      (o.error = some 'p' ↔
        ((inn.matrix.isSome ∧ out.matrix = none) ∨
         (Fits (dims inn).1 (dims out).1 ∧ inn.vector.isSome ∧ out.vector = none) ∨
         (Fits (dims inn).1 (dims out).1 ∧ Fits (dims inn).2.1 (dims out).2.1 ∧
            inn.weights.isSome ∧ out.weights = none))) := by
  have h1 := (partError_none inn.matrix out.matrix (fun m : Mat α => (m.size1, m.cols))
    (fun a b => a.size1 == b.size1 && a.cols == b.cols) (by simp))
  have h2 := (partError_none inn.vector out.vector List.length
    (fun a b => a.length == b.length) (by simp))
  have h3 := (partError_none inn.weights out.weights List.length
    (fun a b => a.length == b.length) (by simp))
  have pe : ∀ {β : Type} (a b : Option β) (s : β → β → Bool) e, partError a b s = some e →
      (e = 'p' ∨ e = 'd') ∧ (e = 'p' ↔ a.isSome ∧ b = none) := by
    intro β a b s e he
    cases a with
    | none => simp [partError] at he
    | some a =>
      cases b with
      | none => simp [partError] at he; simp [← he]
      | some b =>
        simp only [partError] at he
        split at he
        · cases he
        · cases he; simp
  have pn : ∀ {β : Type} (a b : Option β) (s : β → β → Bool), partError a b s = none →
      ¬ (a.isSome ∧ b = none) := by
    intro β a b s he ⟨x, y⟩
    cases a <;> simp_all [partError]
  unfold memcpyPage
  cases e1 : partError inn.matrix out.matrix (fun a b => a.size1 == b.size1 && a.cols == b.cols) with
  | some e =>
    have hne : ¬ Fits (dims inn).1 (dims out).1 := fun hf => by
      have := h1.2 hf; rw [e1] at this; cases this
    obtain ⟨p1, p2⟩ := pe _ _ _ _ e1
    refine ⟨_, rfl, rfl, rfl, rfl, ?_, ?_⟩
    · simpa using p1
    · simp only [Option.some.injEq, p2, hne, false_and, or_false]
  | none =>
    have f1 : Fits (dims inn).1 (dims out).1 := h1.1 e1
    simp only
    cases e2 : partError inn.vector out.vector (fun a b => a.length == b.length) with
    | some e =>
      have hne : ¬ Fits (dims inn).2.1 (dims out).2.1 := fun hf => by
        have := h2.2 hf; rw [e2] at this; cases this
      obtain ⟨p1, p2⟩ := pe _ _ _ _ e2
      refine ⟨_, rfl, rfl, rfl, rfl, ?_, ?_⟩
      · simpa using p1
      · simp only [Option.some.injEq, p2, hne, f1, true_and, false_and, or_false, pn _ _ _ e1, false_or]
    | none =>
      have f2 : Fits (dims inn).2.1 (dims out).2.1 := h2.1 e2
      simp only
      cases e3 : partError inn.weights out.weights (fun a b => a.length == b.length) with
      | some e =>
        obtain ⟨p1, p2⟩ := pe _ _ _ _ e3
        refine ⟨_, rfl, rfl, rfl, rfl, ?_, ?_⟩
        · simpa using p1
        · simp only [Option.some.injEq, p2, f2, f1, true_and, pn _ _ _ e1, pn _ _ _ e2, false_or]
      | none => exact absurd ⟨f1, f2, h3.1 e3⟩ h

/-- **C40** (finding): copying a 2x1 text grid into a data set with a 1x1 grid writes outside the
target's grid instead of setting error 'd': the size check compares the source with itself. -/
theorem C40_text_overflow :
    ∃ out inn : Page Nat, out.WF ∧ inn.WF ∧ memcpyPage out inn = .ub := by
  refine ⟨{ text := [[[97]]], textsize := (1, 1) }, { text := [[[98]], [[99]]], textsize := (2, 1) },
    ?_, ?_, rfl⟩ <;>
  exact ⟨by simp, ⟨by decide, by decide⟩, by decide⟩

/-- **C40** (finding, general): whenever the source grid (nonempty, well formed) has more rows than
the target's and every numeric part fits, memcpy runs outside the target. -/
theorem C40_text_overflow_rows (out inn : Page α) (hin : inn.TextWF) (hout : out.TextWF)
    (hz : inn.textsize.2 ≠ 0) (h2 : inn.textsize.2 ≤ out.textsize.2)
    (hm : Fits (dims inn).1 (dims out).1) (hv : Fits (dims inn).2.1 (dims out).2.1)
    (hw : Fits (dims inn).2.2 (dims out).2.2) (hlt : out.textsize.1 < inn.textsize.1) :
    memcpyPage out inn = .ub := by
  have e1 := (partError_none inn.matrix out.matrix (fun m : Mat α => (m.size1, m.cols))
    (fun a b => a.size1 == b.size1 && a.cols == b.cols) (by simp)).2 hm
  have e2 := (partError_none inn.vector out.vector List.length
    (fun a b => a.length == b.length) (by simp)).2 hv
  have e3 := (partError_none inn.weights out.weights List.length
    (fun a b => a.length == b.length) (by simp)).2 hw
  obtain ⟨ht1, ht2⟩ := hin
  obtain ⟨ho1, ho2⟩ := hout
  -- copying more rows than allocated is undefined
  have key : ∀ (src grid : List (List CStr)) (i : Nat), (∀ r ∈ src, r.length = inn.textsize.2) →
      (∀ r ∈ grid, r.length = out.textsize.2) → i ≤ grid.length →
      grid.length < i + src.length → copyText grid i src = .ub := by
    intro src
    induction src with
    | nil => intro grid i _ _ h1 h2; simp at h2; omega
    | cons r rs ih =>
      intro grid i hs hg hi hl
      simp only [copyText]
      by_cases hlt : i < grid.length
      · have hrl : r.length = inn.textsize.2 := hs r (by simp)
        have hgl : grid[i].length = out.textsize.2 := hg _ (List.getElem_mem _)
        rw [copyTextRow_eq grid i grid[i] r 0 (by simp [hlt]) (by omega)]
        simp only [Res.bind_ok, List.take_zero, List.nil_append, Nat.zero_add]
        apply ih
        · intro r' hr'; exact hs r' (by simp [hr'])
        · intro r' hr'
          rcases List.mem_or_eq_of_mem_set hr' with h | h
          · exact hg _ h
          · subst h; simp; omega
        · simp; omega
        · simp at hl ⊢; omega
      · have hrl : r.length = inn.textsize.2 := hs r (by simp)
        cases r with
        | nil => exact absurd hrl.symm hz
        | cons s ss =>
          have : rd grid i = .ub := by simp [rd, List.getElem?_eq_none (by omega : grid.length ≤ i)]
          simp [copyTextRow, wrText, this]
  unfold memcpyPage
  have hz1 : inn.textsize.1 ≠ 0 := by omega
  simp only [e1, e2, e3, ne_eq, hz1, hz, not_false_eq_true, and_self, if_true]
  have hk : copyText out.text 0 inn.text = .ub := key _ _ _ ht2 ho2 (by omega) (by omega)
  cases hn : inn.names <;> simp [hk]

example : GridFits demoPage demoPage ∧ Fits (dims demoPage).1 (dims demoPage).1 := by
  refine ⟨⟨Nat.le_refl _, ?_⟩, fun a h => h⟩
  intro k r g h1 h2
  rw [h1] at h2; cases h2; exact Nat.le_refl _

end Apop.Page
