import Verif.Rows.Lemmas
import Verif.Data.CopyProps

namespace Apop.Rows
open Apop.Views
variable {α : Type}

/-! ## C14: apop_data_rm_rows -/

/-- Specification: the data set that consists of the rows of `p` whose index satisfies `keep`, in
order; everything that is not indexed by rows (column names, title, ...) is as in `p`. -/
def onlyRows (keep : Nat → Bool) (p : Page α) : Page α :=
  { p with
    vector := p.vector.map (keepBy keep)
    matrix := p.matrix.map (fun m => { m with rows := keepBy keep m.rows })
    weights := p.weights.map (keepBy keep)
    text := keepBy keep p.text
    textsize := ((keepBy keep p.text).length, p.textsize.2)
    names := p.names.map (fun n => { n with row := keepBy keep n.row }) }

/-- Specification: the data set without any data part, row names removed, other names kept. -/
def noRows (p : Page α) : Page α :=
  { p with vector := none, matrix := none, weights := none, text := [], textsize := (0, 0),
           names := p.names.map (fun n => { n with row := [] }) }

theorem reallocMat_same (junk : α) (rows : List (List α)) (c k : Nat) (h : ∀ r ∈ rows, r.length = c)
    (hk : k ≤ rows.length) : Stack.reallocMat junk ⟨rows, c⟩ k c = ⟨rows.take k, c⟩ := by
  unfold Stack.reallocMat
  have e : (rows.take k).map (fun r => r.take c ++ List.replicate (c - r.length) junk) = rows.take k := by
    rw [List.map_congr_left (g := id), List.map_id]
    intro r hr
    have := h r (List.mem_of_mem_take hr)
    simp [this, List.take_of_length_le (Nat.le_of_eq this)]
  simp only [e, show k - rows.length = 0 by omega, List.replicate_zero, List.append_nil]

theorem growText_same (g : List (List CStr)) (c k : Nat) (h : ∀ r ∈ g, r.length = c) (hk : k ≤ g.length) :
    Stack.growText g k c = g.take k := by
  unfold Stack.growText
  have e : (g.take k).map (fun r => r.take c ++ List.replicate (c - r.length) []) = g.take k := by
    rw [List.map_congr_left (g := id), List.map_id]
    intro r hr
    have := h r (List.mem_of_mem_take hr)
    simp [this, List.take_of_length_le (Nat.le_of_eq this)]
  simp only [e, show k - g.length = 0 by omega, List.replicate_zero, List.append_nil]

/-- **C14** (all parts have as many rows as the set, and the row names are complete or
absent; see `C14_short_names_stale` and `C14_ragged_stale` for what happens otherwise). For every drop
array and every callback, exactly the surviving rows remain, in order, in every part; the
callback is consulted on the original rows. If none survives all parts are NULL, the row
names are gone and the other names remain. -/
theorem C14_rm_rows (junk : α) (p : Page α) (drop : Option (List Bool)) (f : Option (Page α → Bool))
    (n : Nat) (hp : p.WF) (hr : Rect p n) (hn : maxsize p = n)
    (hd : ∀ d, drop = some d → n ≤ d.length) (hgiven : drop.isSome ∨ f.isSome) :
    rmRows junk p drop f = .ok
      (if ∃ i < n, keeps drop f p i = true then onlyRows (keeps drop f p) p else noRows p) := by
  have hs := shiftLoop_eq drop f p n hp hr hd n 0 (by omega)
  have hks : (∃ i < n, keeps drop f p i = true) ↔ kept (keeps drop f p) n ≠ 0 := by
    unfold kept
    rw [Ne, List.length_eq_zero_iff, List.filter_eq_nil_iff]
    simp
  have hns : ¬ (drop.isNone ∧ f.isNone) := by
    rintro ⟨a, b⟩; cases drop <;> cases f <;> simp_all
  generalize keeps drop f p = keep at *
  have h0 : mapRows (comp keep 0) p = p := by
    apply pageExt <;> simp [mapRows, comp_zero]
    · show p.vector.map _ = _
      cases p.vector <;> simp [comp_zero]
    · show p.weights.map _ = _
      cases p.weights <;> simp [comp_zero]
  have hk0 : kept keep 0 = 0 := rfl
  rw [h0, hk0] at hs
  unfold rmRows
  rw [if_neg hns, hn, hs]
  simp only [Res.bind_ok]
  obtain ⟨hm, ⟨ht1, ht2⟩, hz⟩ := hp
  congr 1
  have full : ∀ {β : Type} (l : List β), l.length = n → (comp keep n l).take (kept keep n) = keepBy keep l := by
    intro β l hl; subst hl; exact comp_full keep l
  have clen : ∀ {β : Type} (l : List β), l.length = n → (comp keep n l).length = n := by
    intro β l hl; rw [comp_length keep l n (by omega), hl]
  have hkn := kept_le keep n
  by_cases hko : kept keep n = 0
  · rw [if_pos hko, if_neg (by rw [hks]; simpa using hko), hko]
    apply pageExt
    · rfl
    · rfl
    · rfl
    · rfl
    · show (p.names.map _).map _ = p.names.map _
      cases hnn : p.names with
      | none => rfl
      | some nm =>
        simp only [Option.map_some, Option.some.injEq]
        by_cases h : 0 < (comp keep n nm.row).length
        · rw [if_pos h]; simp
        · rw [if_neg h]
          have : comp keep n nm.row = [] := List.eq_nil_of_length_eq_zero (by omega)
          simp [this]
    · rfl
    · rfl
  · rw [if_neg hko, if_pos (by rw [hks]; exact hko)]
    have cmem : ∀ {β : Type} (l : List β) x, x ∈ comp keep n l → x ∈ l := by
      intro β l x hx
      unfold comp at hx
      rcases List.mem_append.1 hx with h | h
      · exact List.mem_of_mem_take (keepBy_mem _ _ _ h)
      · exact List.mem_of_mem_drop h
    apply pageExt
    · show (p.vector.map _).map _ = p.vector.map _
      cases hv : p.vector with
      | none => rfl
      | some v =>
        have := hr.vec v hv
        simp only [Option.map_some, Option.some.injEq]
        rw [clen v this, Nat.min_eq_right hkn, full v this]
    · show (p.matrix.map _).map _ = p.matrix.map _
      cases hv : p.matrix with
      | none => rfl
      | some m =>
        have h1 : m.rows.length = n := hr.mat m hv
        have h2 := hm m hv
        simp only [Option.map_some, Option.some.injEq, Mat.size1]
        rw [clen m.rows h1, Nat.min_eq_right hkn, reallocMat_same, full m.rows h1]
        · intro r hr'; exact h2 r (cmem _ _ hr')
        · rw [clen m.rows h1]; exact hkn
    · show (p.weights.map _).map _ = p.weights.map _
      cases hv : p.weights with
      | none => rfl
      | some v =>
        have := hr.wts v hv
        simp only [Option.map_some, Option.some.injEq]
        rw [clen v this, Nat.min_eq_right hkn, full v this]
    · show (if comp keep n p.text = [] then comp keep n p.text else Stack.growText (comp keep n p.text) (min (kept keep n) p.textsize.1) p.textsize.2) = keepBy keep p.text
      rcases hr.txt with h | h
      · have h1 : p.text.length = n := by omega
        have : comp keep n p.text ≠ [] := by
          intro he
          have := clen _ h1; rw [he] at this; simp at this; omega
        rw [if_neg this, h, Nat.min_eq_left hkn, growText_same, full _ h1]
        · intro r hr'; exact ht2 r (cmem _ _ hr')
        · rw [clen _ h1]; exact hkn
      · rw [List.eq_nil_of_length_eq_zero (ht1.trans h), comp_nil]
        simp [keepBy]
    · show (p.names.map _).map _ = p.names.map _
      cases hnn : p.names with
      | none => rfl
      | some nm =>
        simp only [Option.map_some, Option.some.injEq]
        rcases hr.nms nm hnn with h | h
        · rw [clen _ h]
          by_cases hlt : kept keep n < n
          · rw [if_pos hlt, full _ h]
          · rw [if_neg hlt]
            congr 1
            rw [← full _ h, List.take_of_length_le]
            rw [clen _ h]; omega
        · simp [h, comp_nil, keepBy]
    · show (if comp keep n p.text = [] then p.textsize else (min (kept keep n) p.textsize.1, p.textsize.2)) = _
      rcases hr.txt with h | h
      · have h1 : p.text.length = n := by omega
        have : comp keep n p.text ≠ [] := by
          intro he
          have := clen _ h1; rw [he] at this; simp at this; omega
        rw [if_neg this, h, Nat.min_eq_left hkn]
        simp only [onlyRows, keepBy_length, h1]
      · have : p.text = [] := List.eq_nil_of_length_eq_zero (ht1.trans h)
        rw [this, comp_nil]
        simp only [if_true, onlyRows, this, keepBy, List.zipIdx_nil, List.filter_nil, List.map_nil, List.length_nil]
        rw [← h]
    · rfl

/-- Neither an array nor a function: nothing happens. -/
theorem C14_nothing_given (junk : α) (p : Page α) : rmRows junk p none none = .ok p := by
  simp [rmRows]

/-- A set with every part, four rows. -/
def demo : Page Int :=
  { vector := some [1, 2, 3, 4]
    matrix := some ⟨[[10, 11], [20, 21], [30, 31], [40, 41]], 2⟩
    weights := some [5, 6, 7, 8]
    text := [[str "a"], [str "b"], [str "c"], [str "d"]]
    textsize := (4, 1)
    names := some (((Names.alloc.addAll [str "r1", str "r2", str "r3", str "r4"] 'r').addAll
      [str "c1", str "c2"] 'c').addAll [str "t"] 't') }

theorem demo_wf : demo.WF := by
  refine ⟨?_, ?_, by decide⟩
  · intro m hm; cases hm; unfold Mat.WF; decide
  · unfold Page.TextWF; decide

theorem demo_rect : Rect demo 4 := by
  constructor
  · intro v hv; cases hv; rfl
  · intro v hv; cases hv; rfl
  · intro v hv; cases hv; rfl
  · exact Or.inl rfl
  · intro v hv; cases hv; exact Or.inl rfl

example : demo.WF ∧ Rect demo 4 ∧ maxsize demo = 4 ∧
    ∃ i < 4, keeps (some [false, true, false, false]) none demo i = true :=
  ⟨demo_wf, demo_rect, by decide, 0, by decide, by decide⟩

set_option synthInstance.maxSize 1000 in
/-- Non-vacuity: an array marking row 1 and a function rejecting vector elements above 3. -/
example :
    (match rmRows 0 demo (some [false, true, false, false])
        (some (fun v => decide ((v.vector.bind (·[0]?)) = some 4))) with
      | .ok q => some (q.vector, q.matrix, q.weights, q.text, q.names.map (·.row), q.names.map (·.col))
      | .ub => none) =
    some (some [1, 3], some ⟨[[10, 11], [30, 31]], 2⟩, some [5, 7], [[str "a"], [str "c"]],
      some [str "r1", str "r3"], some [str "c1", str "c2"]) := by
  decide +kernel

set_option synthInstance.maxSize 1000 in
example :
    (match rmRows 0 demo (some [true, true, true, true]) none with
      | .ok q => some (q.vector, q.matrix, q.weights, q.text, q.names.map (·.row), q.names.map (·.col))
      | .ub => none) = some (none, none, none, [], some [], some [str "c1", str "c2"]) := by
  decide +kernel

/-- **C14** (finding): with a row name for the first row only, dropping that row leaves the dropped
row's name on the row that moves up (so "each with its own row-name entries" fails). -/
theorem C14_short_names_stale :
    ∃ (p : Page Int), p.WF ∧ p.names.map (·.row) = some [str "first"] ∧ p.vector = some [1, 2] ∧
      ∃ q, rmRows 0 p (some [true, false]) none = .ok q ∧ q.vector = some [2] ∧
        q.names.map (·.row) = some [str "first"] := by
  refine ⟨{ vector := some [1, 2], names := some { row := [str "first"], rowhash := [some (djb2 (str "first"))] } },
    ⟨by simp, ⟨rfl, by simp⟩, by decide⟩, rfl, rfl, _, rfl, by decide +kernel, by decide +kernel⟩

/-- **C14** (finding): with a vector longer than the matrix, dropping row 0 moves the vector elements
up but leaves the dropped row's matrix row in place, now beside another row's vector element. -/
theorem C14_ragged_stale :
    ∃ (p : Page Int), p.WF ∧ p.vector = some [1, 2, 3] ∧ p.matrix = some ⟨[[10]], 1⟩ ∧
      ∃ q, rmRows 0 p (some [true, false, false]) none = .ok q ∧
        q.vector = some [2, 3] ∧ q.matrix = some ⟨[[10]], 1⟩ := by
  refine ⟨{ vector := some [1, 2, 3], matrix := some ⟨[[10]], 1⟩ },
    ⟨by intro m hm; cases hm; unfold Mat.WF; decide, ⟨rfl, by simp⟩, by decide⟩, rfl, rfl, _, rfl,
    by decide, by decide⟩

/-! ## C23: apop_data_listwise_delete -/

/-- Specification: row `i` has a missing value in some part. -/
def Missing (isNaN : α → Bool) (nanString : Option CStr) (p : Page α) (i : Nat) : Prop :=
  (∃ v x, p.vector = some v ∧ v[i]? = some x ∧ isNaN x = true) ∨
  (∃ m r x, p.matrix = some m ∧ m.rows[i]? = some r ∧ x ∈ r ∧ isNaN x = true) ∨
  (∃ w x, p.weights = some w ∧ w[i]? = some x ∧ isNaN x = true) ∨
  (∃ s r c, nanString = some s ∧ p.text[i]? = some r ∧ c ∈ r ∧ caseEq s c = true)

theorem numRows_rect (p : Page α) (n : Nat) (hr : Rect p n) (hn : maxsize p = n) :
    max (numRows p) p.textsize.1 = n ∧ (p.vector.isSome ∨ p.matrix.isSome → numRows p = n) := by
  have h3 := hr.txt
  have h1 : (p.vector.map List.length).getD 0 = n ∨ p.vector = none := by
    cases hv : p.vector with
    | none => simp
    | some v => left; simpa using hr.vec v hv
  have h2 : (p.matrix.map Mat.size1).getD 0 = n ∨ p.matrix = none := by
    cases hv : p.matrix with
    | none => simp
    | some v => left; simpa using hr.mat v hv
  unfold maxsize at hn
  unfold numRows
  rcases h1 with h1 | h1 <;> rcases h2 with h2 | h2 <;> rcases h3 with h3 | h3 <;>
    simp [h1, h2, h3] at hn ⊢ <;> grind

theorem marked_spec (isNaN : α → Bool) (s : Option CStr) (p : Page α) (n : Nat) (hr : Rect p n)
    (hn : maxsize p = n) :
    (marked isNaN s p).length = n ∧
    ∀ i < n, ((marked isNaN s p)[i]? = some true ↔ Missing isNaN s p i) := by
  obtain ⟨h1, h2⟩ := numRows_rect p n hr hn
  unfold marked
  rw [h1]
  refine ⟨by simp, ?_⟩
  intro i hi
  simp only [List.getElem?_map, List.getElem?_range hi, Option.map_some, Option.some.injEq,
    Bool.or_eq_true]
  unfold Missing rowHasNaN rowHasNaNString
  have a : (decide (i < numRows p) && (((p.vector.bind (·[i]?)).map isNaN).getD false ||
      ((p.matrix.bind (fun m => m.rows[i]?)).map (fun r => r.any isNaN)).getD false)) = true ↔
      (∃ v x, p.vector = some v ∧ v[i]? = some x ∧ isNaN x = true) ∨
      (∃ m r x, p.matrix = some m ∧ m.rows[i]? = some r ∧ x ∈ r ∧ isNaN x = true) := by
    have e1 : (((p.vector.bind (·[i]?)).map isNaN).getD false = true) ↔
        (∃ v x, p.vector = some v ∧ v[i]? = some x ∧ isNaN x = true) := by
      cases hv : p.vector with
      | none => simp
      | some v => cases h : v[i]? <;> simp [h]
    have e2 : (((p.matrix.bind (fun m => m.rows[i]?)).map (fun r => r.any isNaN)).getD false = true) ↔
        (∃ m r x, p.matrix = some m ∧ m.rows[i]? = some r ∧ x ∈ r ∧ isNaN x = true) := by
      cases hv : p.matrix with
      | none => simp
      | some m => cases h : m.rows[i]? <;> simp [h]
    rw [Bool.and_eq_true, Bool.or_eq_true, e1, e2, decide_eq_true_iff]
    constructor
    · exact fun h => h.2
    · intro h
      refine ⟨?_, h⟩
      rw [h2]
      · exact hi
      · rcases h with ⟨v, x, h, -⟩ | ⟨m, r, x, h, -⟩
        · left; simp [h]
        · right; simp [h]
  have b : (((p.weights.bind (·[i]?)).map isNaN).getD false = true) ↔
      (∃ w x, p.weights = some w ∧ w[i]? = some x ∧ isNaN x = true) := by
    cases hv : p.weights with
    | none => simp
    | some v => cases h : v[i]? <;> simp [h]
  rw [a, b]
  cases s with
  | none => simp [or_assoc]
  | some s =>
    have c : (((p.text[i]?).map (fun r => r.any (caseEq s))).getD false = true) ↔
        ∃ r c, p.text[i]? = some r ∧ c ∈ r ∧ caseEq s c = true := by
      cases h : p.text[i]? <;> simp
    simp only [c]
    simp [or_assoc]

theorem keeps_marked (isNaN : α → Bool) (s : Option CStr) (p q : Page α) (i : Nat) :
    keeps (some (marked isNaN s p)) none q i = !((marked isNaN s p)[i]?.getD false) := by
  simp [keeps]

/-- Rows of the result of a listwise deletion: exactly those without a missing value. -/
noncomputable def complete (isNaN : α → Bool) (s : Option CStr) (p : Page α) (i : Nat) : Bool :=
  @decide (¬ Missing isNaN s p i) (Classical.propDecidable _)

theorem keepBy_congr {β : Type} (k k' : Nat → Bool) (l : List β) (h : ∀ i < l.length, k i = k' i) :
    keepBy k l = keepBy k' l := by
  unfold keepBy
  congr 1
  apply List.filter_congr
  rintro ⟨a, i⟩ hx
  have := List.snd_lt_of_mem_zipIdx hx
  simp [h i (by simpa using this)]

theorem onlyRows_congr (k k' : Nat → Bool) (p : Page α) (n : Nat) (hp : p.WF) (hr : Rect p n)
    (h : ∀ i < n, k i = k' i) : onlyRows k p = onlyRows k' p := by
  obtain ⟨hm, ⟨ht1, ht2⟩, hz⟩ := hp
  have ht : keepBy k p.text = keepBy k' p.text := by
    apply keepBy_congr; intro i hi; apply h; have := hr.txt; omega
  apply pageExt
  · show p.vector.map _ = p.vector.map _
    cases hv : p.vector with
    | none => rfl
    | some v => simp [keepBy_congr k k' v (by rw [hr.vec v hv]; exact h)]
  · show p.matrix.map _ = p.matrix.map _
    cases hv : p.matrix with
    | none => rfl
    | some v =>
      have := hr.mat v hv
      unfold Mat.size1 at this
      simp [keepBy_congr k k' v.rows (by rw [this]; exact h)]
  · show p.weights.map _ = p.weights.map _
    cases hv : p.weights with
    | none => rfl
    | some v => simp [keepBy_congr k k' v (by rw [hr.wts v hv]; exact h)]
  · exact ht
  · show p.names.map _ = p.names.map _
    cases hv : p.names with
    | none => rfl
    | some v =>
      rcases hr.nms v hv with h' | h'
      · simp [keepBy_congr k k' v.row (by rw [h']; exact h)]
      · simp [h', keepBy]
  · show ((keepBy k p.text).length, p.textsize.2) = ((keepBy k' p.text).length, p.textsize.2)
    rw [ht]
  · rfl

/-- The copy that `apop_data_copy` makes has the same rows. -/
theorem copyOf_rect (p : Page α) (n : Nat) (hp : p.WF) (hr : Rect p n) :
    (Page.copyOf p).WF ∧ Rect (Page.copyOf p) n ∧ maxsize (Page.copyOf p) = maxsize p := by
  refine ⟨hp, ⟨hr.vec, hr.mat, hr.wts, hr.txt, ?_⟩, rfl⟩
  intro nm hnm
  cases hn : p.names with
  | none => simp [Page.copyOf, hn] at hnm; subst hnm; right; rfl
  | some m =>
    simp [Page.copyOf, hn] at hnm; subst hnm
    rw [(Page.copyNames_lists m).1]
    exact hr.nms m hn

open Classical in
/-- **C23** For a rectangular first page and any missingness pattern: if no row is complete (in
particular if there are none) the result is NULL and the input is unchanged; otherwise the result
consists of exactly the complete rows, in order, of the data set itself (in place: the input becomes
the result) or of its copy (not in place: the input is unchanged). Later pages are passed along. -/
theorem C23_listwise (junk : α) (isNaN : α → Bool) (s : Option CStr) (p : Page α) (rest : List (Page α))
    (inplace : Bool) (n : Nat) (hwf : ∀ q ∈ p :: rest, q.WF) (herr : inplace = false → ∀ q ∈ p :: rest, q.error = none)
    (hr : Rect p n) (hn : maxsize p = n) :
    listwise junk isNaN s (p :: rest) inplace = .ok
      (if ∃ i < n, ¬ Missing isNaN s p i then
        if inplace then (some (onlyRows (complete isNaN s p) p :: rest), onlyRows (complete isNaN s p) p :: rest)
        else (some (onlyRows (complete isNaN s p) (Page.copyOf p) :: rest.map Page.copyOf), p :: rest)
      else (none, p :: rest)) := by
  have hp : p.WF := hwf p (by simp)
  obtain ⟨m1, m2⟩ := marked_spec isNaN s p n hr hn
  have hmi : ∀ i < n, (marked isNaN s p)[i]? = some (!(complete isNaN s p i)) := by
    intro i hi
    have h := m2 i hi
    rw [List.getElem?_eq_getElem (by omega : i < (marked isNaN s p).length)] at h ⊢
    simp only [Option.some.injEq] at h ⊢
    unfold complete
    by_cases hm : Missing isNaN s p i
    · simp [hm, h.2 hm]
    · have : (marked isNaN s p)[i] ≠ true := fun e => hm (h.1 e)
      simp [hm, this]
  have hall : (marked isNaN s p).all id = true ↔ ¬ ∃ i < n, ¬ Missing isNaN s p i := by
    rw [List.all_eq_true]
    constructor
    · rintro h ⟨i, hi, hc⟩
      have h1 := h _ (List.getElem_mem (by omega : i < (marked isNaN s p).length))
      exact hc ((m2 i hi).1 (by rw [List.getElem?_eq_getElem (by omega)]; simpa using h1))
    · intro h x hx
      obtain ⟨i, hi, rfl⟩ := List.getElem_of_mem hx
      have h1 : Missing isNaN s p i := by
        by_cases hc : Missing isNaN s p i
        · exact hc
        · exact absurd ⟨i, by omega, hc⟩ h
      have := (m2 i (by omega)).2 h1
      rw [List.getElem?_eq_getElem hi] at this
      simpa using this
  have hw : weightsOverrun isNaN (marked isNaN s p).length p.weights = false := by
    unfold weightsOverrun
    cases h : p.weights with
    | none => rfl
    | some w => simp [m1, ← hr.wts w h]
  have hcond : ((p.matrix.map Mat.size1).getD 0 = 0 ∧ (p.vector.map List.length).getD 0 = 0 ∧ p.textsize.1 = 0) ↔ n = 0 := by
    unfold maxsize at hn; omega
  have hkeep : ∀ q : Page α, ∀ i < n, keeps (some (marked isNaN s p)) none q i = complete isNaN s p i := by
    intro q i hi
    rw [keeps_marked, hmi i hi]; simp
  have hrm : ∀ q : Page α, q.WF → Rect q n → maxsize q = n → (∃ i < n, ¬ Missing isNaN s p i) →
      rmRows junk q (some (marked isNaN s p)) none = .ok (onlyRows (complete isNaN s p) q) := by
    rintro q hq hqr hqn ⟨i, hi, hm⟩
    rw [C14_rm_rows junk q (some (marked isNaN s p)) none n hq hqr hqn (by intro d hd; cases hd; omega) (by simp)]
    rw [if_pos ⟨i, hi, by rw [hkeep q i hi]; simp [complete, hm]⟩, onlyRows_congr _ _ q n hq hqr (hkeep q)]
  unfold listwise
  simp only
  by_cases hn0 : n = 0
  · rw [if_pos (hcond.2 hn0), if_neg (by rintro ⟨i, hi, -⟩; omega)]
  · rw [if_neg (fun h => hn0 (hcond.1 h)), if_neg (by simp [hw])]
    by_cases hex : ∃ i < n, ¬ Missing isNaN s p i
    · rw [if_neg (fun h => hall.1 h hex), if_pos hex]
      cases inplace with
      | true =>
        rw [if_pos rfl, if_pos rfl, hrm p hp hr hn hex]; rfl
      | false =>
        rw [if_neg (by simp), if_neg (by simp), Page.copy_eq junk (p :: rest) hwf (herr rfl)]
        simp only [Res.bind_ok, List.map_cons]
        obtain ⟨c1, c2, c3⟩ := copyOf_rect p n hp hr
        rw [hrm (Page.copyOf p) c1 c2 (c3.trans hn) hex]; rfl
    · rw [if_pos (hall.2 hex), if_neg hex]

/-- Non-vacuity of C23: NaN (here: negative) in the matrix, "nan" in the text, in place. -/
example : (match listwise 0 (· < (0 : Int)) (some (str "NaN"))
      [{ demo with matrix := some ⟨[[10, 11], [20, -1], [30, 31], [40, 41]], 2⟩
                   text := [[str "a"], [str "b"], [str "c"], [str "nan"]] }] true with
    | .ok (some [q], _) => some (q.vector, q.names.map (·.row))
    | _ => none) = some (some [1, 3], some [str "r1", str "r3"]) := by decide +kernel

/-! Idempotence. -/

theorem keepBy_getElem (k : Nat → Bool) {β : Type} (l : List β) (i : Nat) (x : β)
    (h : (keepBy k l)[i]? = some x) : ∃ j, l[j]? = some x ∧ k j = true ∧
      kept k j = i := by
  suffices H : ∀ m ≤ l.length, ∀ i x, (keepBy k (l.take m))[i]? = some x →
      ∃ j, l[j]? = some x ∧ k j = true ∧ kept k j = i by
    exact H l.length (Nat.le_refl _) i x (by rwa [List.take_length])
  intro m
  induction m with
  | zero => intro _ i x h; simp [keepBy] at h
  | succ m ih =>
    intro hm i x h
    rw [keepBy_take_succ k l m (by omega)] at h
    by_cases hi : i < (keepBy k (l.take m)).length
    · rw [List.getElem?_append_left hi] at h
      exact ih (by omega) i x h
    · rw [List.getElem?_append_right (by omega)] at h
      rw [keepBy_take_length k l m (by omega)] at h hi
      by_cases hk : k m = true
      · simp only [hk, if_true] at h
        have : i - kept k m = 0 := by
          have := (List.getElem?_eq_some_iff.1 h).1
          simp at this; omega
        rw [this] at h
        simp at h
        exact ⟨m, by rw [List.getElem?_eq_getElem (by omega)]; simpa using h, hk, by omega⟩
      · simp [hk] at h

theorem kept_inj (k : Nat → Bool) {i j : Nat} (hi : k i = true) (hj : k j = true)
    (h : kept k i = kept k j) : i = j := by
  have mono : ∀ a b, a < b → k a = true → kept k a < kept k b := by
    intro a b hab ha
    induction b with
    | zero => omega
    | succ b ih =>
      rw [kept_succ]
      by_cases hb : a = b
      · subst hb; simp [ha]
      · have := ih (by omega); omega
  rcases Nat.lt_trichotomy i j with hl | hl | hl
  · have := mono i j hl hi; omega
  · exact hl
  · have := mono j i hl hj; omega

/-- No row of the set of complete rows has a missing value. -/
theorem not_missing_onlyRows (isNaN : α → Bool) (s : Option CStr) (p : Page α) (i : Nat) :
    ¬ Missing isNaN s (onlyRows (complete isNaN s p) p) i := by
  have sub : ∀ j, complete isNaN s p j = true → ¬ Missing isNaN s p j := by
    intro j hj; simpa [complete] using hj
  rintro (⟨v, x, h1, h2, h3⟩ | ⟨m, r, x, h1, h2, h3, h4⟩ | ⟨v, x, h1, h2, h3⟩ | ⟨c, r, x, h1, h2, h3, h4⟩)
  · simp only [onlyRows, Option.map_eq_some_iff] at h1
    obtain ⟨v0, hv0, rfl⟩ := h1
    obtain ⟨j, hj, hk, -⟩ := keepBy_getElem _ _ _ _ h2
    exact sub j hk (Or.inl ⟨v0, x, hv0, hj, h3⟩)
  · simp only [onlyRows, Option.map_eq_some_iff] at h1
    obtain ⟨v0, hv0, rfl⟩ := h1
    obtain ⟨j, hj, hk, -⟩ := keepBy_getElem _ _ _ _ h2
    exact sub j hk (Or.inr (Or.inl ⟨v0, r, x, hv0, hj, h3, h4⟩))
  · simp only [onlyRows, Option.map_eq_some_iff] at h1
    obtain ⟨v0, hv0, rfl⟩ := h1
    obtain ⟨j, hj, hk, -⟩ := keepBy_getElem _ _ _ _ h2
    exact sub j hk (Or.inr (Or.inr (Or.inl ⟨v0, x, hv0, hj, h3⟩)))
  · simp only [onlyRows] at h2
    obtain ⟨j, hj, hk, -⟩ := keepBy_getElem _ _ _ _ h2
    exact sub j hk (Or.inr (Or.inr (Or.inr ⟨c, r, x, h1, hj, h3, h4⟩)))

theorem onlyRows_rect (k : Nat → Bool) (p : Page α) (n : Nat) (hp : p.WF) (hr : Rect p n) (hk : kept k n ≠ 0) :
    (onlyRows k p).WF ∧ Rect (onlyRows k p) (kept k n) ∧ (maxsize p = n → maxsize (onlyRows k p) = kept k n) := by
  obtain ⟨hm, ⟨ht1, ht2⟩, hz⟩ := hp
  have ts : (keepBy k p.text).length = if p.textsize.1 = 0 then 0 else kept k n := by
    rw [keepBy_length, ht1]
    rcases hr.txt with h | h
    · split
      · next h0 => rw [h0]; rfl
      · rw [h]
    · rw [h]; rfl
  have rect : Rect (onlyRows k p) (kept k n) := by
    constructor
    · intro v hv
      simp only [onlyRows, Option.map_eq_some_iff] at hv
      obtain ⟨v0, h0, rfl⟩ := hv
      rw [keepBy_length, hr.vec v0 h0]
    · intro v hv
      simp only [onlyRows, Option.map_eq_some_iff] at hv
      obtain ⟨v0, h0, rfl⟩ := hv
      show (keepBy k v0.rows).length = _
      rw [keepBy_length]; congr 1; exact hr.mat v0 h0
    · intro v hv
      simp only [onlyRows, Option.map_eq_some_iff] at hv
      obtain ⟨v0, h0, rfl⟩ := hv
      rw [keepBy_length, hr.wts v0 h0]
    · show (keepBy k p.text).length = _ ∨ (keepBy k p.text).length = _
      rw [ts]; split <;> simp
    · intro v hv
      simp only [onlyRows, Option.map_eq_some_iff] at hv
      obtain ⟨v0, h0, rfl⟩ := hv
      rcases hr.nms v0 h0 with h | h
      · left; show (keepBy k v0.row).length = _; rw [keepBy_length, h]
      · right; show keepBy k v0.row = _; simp [h, keepBy]
  refine ⟨⟨?_, ⟨rfl, ?_⟩, ?_⟩, rect, ?_⟩
  · intro m hmm
    simp only [onlyRows, Option.map_eq_some_iff] at hmm
    obtain ⟨v0, h0, rfl⟩ := hmm
    intro r hr'
    exact hm v0 h0 r (keepBy_mem _ _ _ hr')
  · intro r hr'
    exact ht2 r (keepBy_mem _ _ _ hr')
  · show (keepBy k p.text).length = 0 ↔ p.textsize.2 = 0
    rw [ts, ← hz]; split <;> simp_all
  · intro hn
    have hle : maxsize (onlyRows k p) ≤ kept k n := by
      unfold maxsize
      have h1 : ((onlyRows k p).vector.map List.length).getD 0 ≤ kept k n := by
        cases hv : (onlyRows k p).vector with
        | none => simp
        | some v => simp [rect.vec v hv]
      have h2 : ((onlyRows k p).matrix.map Mat.size1).getD 0 ≤ kept k n := by
        cases hv : (onlyRows k p).matrix with
        | none => simp
        | some v => simp [rect.mat v hv]
      have := rect.txt
      omega
    have hge : kept k n ≤ maxsize (onlyRows k p) := by
      have hn0 : n ≠ 0 := by rintro rfl; exact hk rfl
      unfold maxsize at hn ⊢
      have h1 : (p.vector.map List.length).getD 0 ≠ 0 → ((onlyRows k p).vector.map List.length).getD 0 = kept k n := by
        intro h
        cases hv : p.vector with
        | none => simp [hv] at h
        | some v => simp [onlyRows, hv, keepBy_length, hr.vec v hv]
      have h2 : (p.matrix.map Mat.size1).getD 0 ≠ 0 → ((onlyRows k p).matrix.map Mat.size1).getD 0 = kept k n := by
        intro h
        cases hv : p.matrix with
        | none => simp [hv] at h
        | some v =>
          have : v.rows.length = n := hr.mat v hv
          simp [onlyRows, hv, Mat.size1, keepBy_length, this]
      have h3 : p.textsize.1 ≠ 0 → (onlyRows k p).textsize.1 = kept k n := by
        intro h
        show (keepBy k p.text).length = _
        rw [ts, if_neg h]
      by_cases c1 : (p.vector.map List.length).getD 0 = 0
      · by_cases c2 : (p.matrix.map Mat.size1).getD 0 = 0
        · have := h3 (by omega); omega
        · have := h2 c2; omega
      · have := h1 c1; omega
    omega

theorem onlyRows_all (k : Nat → Bool) (p : Page α) (n : Nat) (hp : p.WF) (hr : Rect p n)
    (h : ∀ i < n, k i = true) : onlyRows k p = p := by
  rw [onlyRows_congr k (fun _ => true) p n hp hr h]
  have e : ∀ {β : Type} (l : List β), keepBy (fun _ => true) l = l := by
    intro β l; exact keepBy_all _ _ (by simp)
  apply pageExt
  · show p.vector.map _ = _; cases p.vector <;> simp [e]
  · show p.matrix.map _ = _; cases p.matrix <;> simp [e]
  · show p.weights.map _ = _; cases p.weights <;> simp [e]
  · exact e _
  · show p.names.map _ = _; cases p.names <;> simp [e]
  · show ((keepBy _ p.text).length, p.textsize.2) = p.textsize
    rw [e, hp.2.1.1]
  · rfl

/-- **C23** (idempotence): deleting again from a result changes nothing. -/
theorem C23_idempotent (junk : α) (isNaN : α → Bool) (s : Option CStr) (p : Page α) (rest : List (Page α))
    (n : Nat) (hwf : ∀ q ∈ p :: rest, q.WF) (hr : Rect p n) (hn : maxsize p = n)
    (out inp : List (Page α)) (h : listwise junk isNaN s (p :: rest) true = .ok (some out, inp)) :
    listwise junk isNaN s out true = .ok (some out, out) := by
  classical
  rw [C23_listwise junk isNaN s p rest true n hwf (by simp) hr hn] at h
  by_cases hex : ∃ i < n, ¬ Missing isNaN s p i
  · rw [if_pos hex] at h
    simp only [if_true, Res.ok.injEq, Prod.mk.injEq, Option.some.injEq] at h
    obtain ⟨rfl, -⟩ := h
    have hk : kept (complete isNaN s p) n ≠ 0 := by
      obtain ⟨i, hi, hm⟩ := hex
      unfold kept
      rw [Ne, List.length_eq_zero_iff, List.filter_eq_nil_iff]
      intro h
      exact h i (List.mem_range.2 hi) (by simp [complete, hm])
    obtain ⟨w, r, ms⟩ := onlyRows_rect (complete isNaN s p) p n (hwf p (by simp)) hr hk
    rw [C23_listwise junk isNaN s _ rest true _ (by
        intro q hq
        rcases List.mem_cons.1 hq with rfl | hq
        · exact w
        · exact hwf q (by simp [hq])) (by simp) r (ms hn)]
    rw [if_pos ⟨0, by omega, not_missing_onlyRows isNaN s p 0⟩]
    rw [if_pos rfl, onlyRows_all (complete isNaN s (onlyRows (complete isNaN s p) p)) _ _ w r
      (fun i _ => by simp [complete, not_missing_onlyRows])]
  · rw [if_neg hex] at h
    simp at h

/-- **C23** (finding): a weights vector longer than the data with a NaN beyond the data's end is
marked outside the array: undefined behaviour. -/
theorem C23_long_weights_ub (junk : α) (isNaN : α → Bool) (x : α) (v w : List α) (hv : v ≠ [])
    (hw : v.length ≤ w.length) (hx : isNaN x = true) (rest : List (Page α)) (inplace : Bool) (s : Option CStr) :
    listwise junk isNaN s ({ vector := some v, weights := some (w ++ [x]) } :: rest) inplace = .ub := by
  unfold listwise
  have : v.length ≠ 0 := by simpa using hv
  simp only [Option.map_none, Option.getD_none, Option.map_some, Option.getD_some, this, false_and, and_false, if_false]
  rw [if_pos]
  have e : (marked isNaN s ({ vector := some v, weights := some (w ++ [x]) } : Page α)).length = v.length := by
    have e2 : numRows ({ vector := some v, weights := some (w ++ [x]) } : Page α) = v.length := by
      simp [numRows, hv]
    simp [marked, e2]
  rw [e]
  simp [weightsOverrun, List.drop_append_of_le_length hw, hx]

example : ∃ (v w : List Int), v ≠ [] ∧ v.length ≤ w.length := ⟨[1], [1], by simp, by simp⟩

end Apop.Rows
