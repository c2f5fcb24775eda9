import Verif.Sort.Model
import Verif.Rows.Lemmas

/-! # Rearrangement of rows: what one copy does, and the cycle-following loop -/

namespace Apop.Sort
open Apop.Views Apop.Rows
variable {α β : Type}

/-- Specification: the rows `π[0], π[1], ..` of a list. -/
def pick (π : List Nat) (l : List β) : List β := π.filterMap (l[·]?)

/-- Specification: the data set whose row `i` is row `π[i]` of `p`, in every part. -/
def gather (π : List Nat) (p : Page α) : Page α :=
  { p with
    vector := p.vector.map (pick π)
    matrix := p.matrix.map (fun m => { m with rows := pick π m.rows })
    weights := p.weights.map (pick π)
    text := pick π p.text
    textsize := (if p.textsize.1 = 0 then 0 else π.length, p.textsize.2)
    names := p.names.map (fun n => { n with row := pick π n.row }) }

/-- All entries are row numbers of an `n`-row set. -/
def Below (π : List Nat) (n : Nat) : Prop := ∀ x ∈ π, x < n

theorem pick_nil (π : List Nat) : pick π ([] : List β) = [] := by
  simp [pick, List.filterMap_eq_nil_iff]

theorem pick_spec (π : List Nat) (l : List β) (h : Below π l.length) :
    (pick π l).length = π.length ∧ ∀ k : Nat, (pick π l)[k]? = (π[k]?).bind (l[·]?) := by
  induction π with
  | nil => simp [pick]
  | cons x π ih =>
    obtain ⟨a, b⟩ := ih (fun y hy => h y (by simp [hy]))
    have hx : x < l.length := h x (by simp)
    unfold pick at *
    simp only [List.filterMap_cons, List.getElem?_eq_getElem hx]
    refine ⟨by simp [a], ?_⟩
    intro k
    cases k with
    | zero => simp [List.getElem?_eq_getElem hx]
    | succ k => simpa using b k

theorem pick_range (l : List β) : pick (List.range l.length) l = l := by
  have hb : Below (List.range l.length) l.length := fun x hx => by simpa using hx
  obtain ⟨a, b⟩ := pick_spec _ l hb
  apply List.ext_getElem?
  intro k
  rw [b]
  by_cases hk : k < l.length
  · simp [List.getElem?_range hk]
  · rw [List.getElem?_eq_none (by simpa using hk), List.getElem?_eq_none (by omega)]; rfl

theorem below_set {π : List Nat} {n : Nat} (h : Below π n) {x : Nat} (hx : x < n) (o : Nat) : Below (π.set o x) n := by
  intro y hy
  rcases List.mem_or_eq_of_mem_set hy with h' | h'
  · exact h y h'
  · exact h' ▸ hx

theorem pick_set (π : List Nat) (l : List β) (o x : Nat) (h : Below π l.length) (ho : o < π.length) (hx : x < l.length) :
    pick (π.set o x) l = putAt (pick π l) o [l[x]] := by
  obtain ⟨a, b⟩ := pick_spec π l h
  obtain ⟨a', b'⟩ := pick_spec (π.set o x) l (below_set h hx o)
  apply List.ext_getElem?
  intro k
  rw [b']
  unfold putAt
  simp only [List.length_cons, List.length_nil, Nat.zero_add]
  by_cases hk : k < o
  · rw [List.getElem?_append_left (by simp; omega), List.getElem?_append_left (by simp; omega),
      List.getElem?_take_of_lt hk, b, List.getElem?_set_ne (by omega)]
  · by_cases hk2 : k = o
    · subst hk2
      rw [List.getElem?_set_self ho, List.getElem?_append_left (by simp; omega),
        List.getElem?_append_right (by simp; omega)]
      simp [a, Nat.min_eq_left (Nat.le_of_lt ho), List.getElem?_eq_getElem hx]
    · rw [List.getElem?_append_right (by simp; omega), List.getElem?_set_ne (by omega), List.getElem?_drop, b]
      congr 2
      simp [a]; omega

/-! ### gather keeps the invariants -/

theorem rect_gather {p : Page α} {n : Nat} (hp : p.WF) (hr : Rect p n) (π : List Nat) (hb : Below π n) (hl : π.length ≠ 0) :
    (gather π p).WF ∧ Rect (gather π p) π.length := by
  obtain ⟨hm, ⟨ht1, ht2⟩, hz⟩ := hp
  have htext : (pick π p.text).length = if p.textsize.1 = 0 then 0 else π.length := by
    rcases hr.txt with h | h
    · split
      · next h0 =>
        have : p.text = [] := List.eq_nil_of_length_eq_zero (by omega)
        rw [this, pick_nil]; rfl
      · exact (pick_spec π p.text (by rw [ht1, h]; exact hb)).1
    · have : p.text = [] := List.eq_nil_of_length_eq_zero (by omega)
      rw [if_pos h, this, pick_nil]; rfl
  refine ⟨⟨?_, ⟨htext, ?_⟩, ?_⟩, ?_, ?_, ?_, ?_, ?_⟩
  · intro m hmm r hrr
    simp only [gather, Option.map_eq_some_iff] at hmm
    obtain ⟨m0, h0, rfl⟩ := hmm
    simp only at hrr
    unfold pick at hrr
    obtain ⟨k, -, hk⟩ := List.mem_filterMap.1 hrr
    exact hm m0 h0 r (List.mem_of_getElem? hk)
  · intro r hrr
    simp only [gather] at hrr
    unfold pick at hrr
    obtain ⟨k, -, hk⟩ := List.mem_filterMap.1 hrr
    exact ht2 r (List.mem_of_getElem? hk)
  · simp only [gather]
    split
    · next h0 => simp [hz.1 h0]
    · next h0 =>
      have : p.textsize.2 ≠ 0 := fun e => h0 (hz.2 e)
      simp [this]; intro e; exact hl (by rw [e]; rfl)
  · intro v hv
    simp only [gather, Option.map_eq_some_iff] at hv
    obtain ⟨v0, h0, rfl⟩ := hv
    exact (pick_spec π v0 (by rw [hr.vec v0 h0]; exact hb)).1
  · intro m hmm
    simp only [gather, Option.map_eq_some_iff] at hmm
    obtain ⟨m0, h0, rfl⟩ := hmm
    have := hr.mat m0 h0
    unfold Mat.size1 at *
    exact (pick_spec π m0.rows (by rw [this]; exact hb)).1
  · intro v hv
    simp only [gather, Option.map_eq_some_iff] at hv
    obtain ⟨v0, h0, rfl⟩ := hv
    exact (pick_spec π v0 (by rw [hr.wts v0 h0]; exact hb)).1
  · simp only [gather]; split
    · exact Or.inr rfl
    · exact Or.inl rfl
  · intro nm hn
    simp only [gather, Option.map_eq_some_iff] at hn
    obtain ⟨n0, h0, rfl⟩ := hn
    rcases hr.nms n0 h0 with h | h
    · exact Or.inl (pick_spec π n0.row (by rw [h]; exact hb)).1
    · exact Or.inr (by simp [h, pick_nil])

/-! ### one row -/

/-- `src` holds exactly row `x` of `p`. -/
structure RowImage (p : Page α) (x : Nat) (src : Page α) : Prop where
  vec : src.vector = p.vector.map (fun l => (l.drop x).take 1)
  mat : src.matrix = p.matrix.map (fun m => ⟨(m.rows.drop x).take 1, m.cols⟩)
  wts : src.weights = p.weights.map (fun l => (l.drop x).take 1)
  txt : src.text = (p.text.drop x).take 1
  tsz : src.textsize = (if p.textsize.1 = 0 then 0 else 1, p.textsize.2)
  nms : ∀ n, p.names = some n → ∃ m, src.names = some m ∧ m.row = (n.row.drop x).take 1 ∧ m.col = n.col ∧
    m.text = n.text ∧ (m.vector = none ∨ m.vector = n.vector)

theorem take1_pick (π : List Nat) (l : List β) (i x : Nat) (h : Below π l.length) (hi : π[i]? = some x) :
    ((pick π l).drop i).take 1 = (l.drop x).take 1 := by
  obtain ⟨a, b⟩ := pick_spec π l h
  have hil : i < π.length := (List.getElem?_eq_some_iff.1 hi).1
  have hx : x < l.length := h x (List.mem_of_getElem? hi)
  rw [drop_take_one _ _ (by omega : i < (pick π l).length), drop_take_one _ _ hx]
  have := b i
  rw [hi, List.getElem?_eq_getElem (by omega)] at this
  simp only [Option.bind_some, List.getElem?_eq_getElem hx, Option.some.injEq] at this
  rw [this]

theorem image_view {p : Page α} {n : Nat} (hp : p.WF) (hr : Rect p n) (π : List Nat) (hb : Below π n)
    (i x : Nat) (hi : π[i]? = some x) : RowImage p x (rowView (gather π p) i 1) := by
  obtain ⟨hm, ⟨ht1, ht2⟩, hz⟩ := hp
  have hil : i < π.length := (List.getElem?_eq_some_iff.1 hi).1
  have cutp : ∀ {γ : Type} (l : List γ), l.length = n → cut (pick π l) i 1 = some ((l.drop x).take 1) := by
    intro γ l hl
    unfold cut
    have hb' : Below π l.length := by rw [hl]; exact hb
    rw [if_neg (by rw [(pick_spec π l hb').1]; omega), take1_pick π l i x hb' hi]
  refine ⟨?_, ?_, ?_, ?_, ?_, ?_⟩
  · simp only [rowView, gather]
    cases h : p.vector with
    | none => rfl
    | some v => simp [cutp v (hr.vec v h)]
  · simp only [rowView, gather]
    cases h : p.matrix with
    | none => rfl
    | some m => simp [cutp m.rows (hr.mat m h)]
  · simp only [rowView, gather]
    cases h : p.weights with
    | none => rfl
    | some v => simp [cutp v (hr.wts v h)]
  · simp only [rowView, gather]
    by_cases h0 : p.textsize.1 = 0
    · have : p.text = [] := List.eq_nil_of_length_eq_zero (by omega)
      simp [this, pick_nil]
    · have htn := hr.txt.resolve_right h0
      simp only [if_neg h0, show π.length ≥ i + 1 by omega, if_true]
      exact take1_pick π p.text i x (by rw [ht1, htn]; exact hb) hi
  · simp only [rowView, gather]
    by_cases h0 : p.textsize.1 = 0
    · simp [h0]
    · simp [h0]; omega
  · intro nm hn
    refine ⟨rowNames { nm with row := pick π nm.row } i, by simp [rowView, gather, hn], ?_, rfl, rfl, Or.inr rfl⟩
    rw [rowNames_row]
    rcases hr.nms nm hn with h | h
    · exact take1_pick π nm.row i x (by rw [h]; exact hb) hi
    · simp [h, pick_nil]

/-- The saved copy of a row is that row. -/
theorem image_save (junk : α) {p : Page α} {n : Nat} (hp : p.WF) (hr : Rect p n) (π : List Nat) (hb : Below π n)
    (i x : Nat) (hi : π[i]? = some x) :
    ∃ st, saveRow junk (gather π p) i = .ok st ∧ RowImage p x st := by
  have im := image_view hp hr π hb i x hi
  obtain ⟨hm, ⟨ht1, ht2⟩, hz⟩ := hp
  have hxn : x < n := hb x (List.mem_of_getElem? hi)
  have hwf : (rowView (gather π p) i 1).WF := by
    refine ⟨?_, ⟨?_, ?_⟩, ?_⟩
    · intro m hmm
      rw [im.mat] at hmm
      simp only [Option.map_eq_some_iff] at hmm
      obtain ⟨m0, h0, rfl⟩ := hmm
      intro r hrr
      exact hm m0 h0 r (List.mem_of_mem_drop (List.mem_of_mem_take hrr))
    · rw [im.txt, im.tsz]
      by_cases h0 : p.textsize.1 = 0
      · have : p.text = [] := List.eq_nil_of_length_eq_zero (by omega)
        simp [this, h0]
      · have htn := hr.txt.resolve_right h0
        simp [h0]; omega
    · rw [im.txt, im.tsz]
      intro r hrr
      exact ht2 r (List.mem_of_mem_drop (List.mem_of_mem_take hrr))
    · rw [im.tsz]
      by_cases h0 : p.textsize.1 = 0
      · simp [h0, hz.1 h0]
      · have : p.textsize.2 ≠ 0 := fun e => h0 (hz.2 e)
        simp [h0, this]
  have hc := Page.copy_eq junk [rowView (gather π p) i 1] (by simpa using hwf) (by simp [rowView])
  refine ⟨Page.copyOf (rowView (gather π p) i 1), ?_, ?_⟩
  · simp [saveRow, hc, rd]
  · refine ⟨im.vec, im.mat, im.wts, im.txt, im.tsz, ?_⟩
    intro nm hn
    obtain ⟨m, h1, h2, h3, h4, h5⟩ := im.nms nm hn
    refine ⟨Page.copyNames m, by simp [Page.copyOf, h1], ?_⟩
    obtain ⟨c1, c2, c3, c4, -, -⟩ := Page.copyNames_lists m
    exact ⟨c1.trans h2, c2.trans h3, c3.trans h4, Or.inl c4⟩

/-- `apop_data_memcpy` of names when the target already has as many. -/
theorem memcpyNames_into (o i : Names) (hc : i.col = o.col) (ht : i.text = o.text)
    (hl : i.row.length = o.row.length) :
    ∃ t v, Page.memcpyNames o i = { o with title := t, vector := v, row := i.row } := by
  unfold Page.memcpyNames
  obtain ⟨ot, ov, oc, orow, ox, a, b, c⟩ := o
  simp only at *
  have fin : ∀ mv : Option CStr, Page.copyList 't' Names.text (fun n l => { n with text := l })
      (Page.copyList 'c' Names.col (fun n l => { n with col := l })
        (Page.copyList 'r' Names.row (fun n l => { n with row := l })
          ⟨some (Names.printS i.title), mv, oc, orow, ox, a, b, c⟩ 0 i.row) 0 i.col) 0 i.text =
      ⟨some (Names.printS i.title), mv, oc, i.row, ox, a, b, c⟩ := by
    intro mv
    rw [Page.copyList_put 'r' Names.row _ (by simp) (by simp) (by simp) _ 0 _ (by simp; omega)]
    simp only [List.take_zero, List.nil_append, Nat.zero_add]
    rw [Page.copyList_put 'c' Names.col _ (by simp) (by simp) (by simp) _ 0 _ (by simp [hc])]
    simp only [List.take_zero, List.nil_append, Nat.zero_add, hc, List.drop_length, List.append_nil]
    rw [Page.copyList_put 't' Names.text _ (by simp) (by simp) (by simp) _ 0 _ (by simp [ht])]
    simp only [List.take_zero, List.nil_append, Nat.zero_add, ht, List.drop_length, List.append_nil]
    rw [hl, List.drop_length, List.append_nil]
  cases ov with
  | none => exact ⟨_, none, fin none⟩
  | some v =>
    cases hv : i.vector with
    | none => exact ⟨_, _, fin (some v)⟩
    | some v' => exact ⟨_, _, fin (some v')⟩

/-- Writing the image of row `x` over row `o`. -/
theorem writeRow_eq {p : Page α} {n : Nat} (hp : p.WF) (hr : Rect p n) (π : List Nat) (hb : Below π n)
    (hl : π.length = n) (o x : Nat) (ho : o < n) (hx : x < n) (src : Page α) (im : RowImage p x src) :
    writeRow (gather π p) o src = .ok (gather (π.set o x) p) := by
  obtain ⟨y, hy⟩ : ∃ y, π[o]? = some y := ⟨_, List.getElem?_eq_getElem (by omega)⟩
  have hyn : y < n := hb y (List.mem_of_getElem? hy)
  have iv := image_view hp hr π hb o y hy
  obtain ⟨hm, ⟨ht1, ht2⟩, hz⟩ := hp
  generalize hq : rowView (gather π p) o 1 = q at *
  have l1 : ∀ {γ : Type} (l : List γ) (k : Nat), l.length = n → k < n → ((l.drop k).take 1).length = 1 := by
    intro γ l k h1 h2; simp; omega
  have e1 : Page.partError src.matrix q.matrix (fun a b => a.size1 == b.size1 && a.cols == b.cols) = none := by
    rw [im.mat, iv.mat]
    cases hmm : p.matrix with
    | none => rfl
    | some m =>
      have := hr.mat m hmm
      unfold Mat.size1 at this
      simp [Page.partError, Mat.size1]; omega
  have ev : ∀ (part : Option (List α)), (∀ v, part = some v → v.length = n) →
      Page.partError (part.map (fun l => (l.drop x).take 1)) (part.map (fun l => (l.drop y).take 1))
        (fun a b => a.length == b.length) = none := by
    intro part h
    cases part with
    | none => rfl
    | some v => have := h v rfl; simp [Page.partError]; omega
  have e2 := ev p.vector hr.vec
  have e3 := ev p.weights hr.wts
  rw [← im.vec, ← iv.vec] at e2
  rw [← im.wts, ← iv.wts] at e3
  have key : ∃ V b, Page.memcpyPage q src = .ok (V, b) ∧
      V.vector = src.vector.or q.vector ∧ V.matrix = src.matrix.or q.matrix ∧
      V.weights = src.weights.or q.weights ∧ V.text = src.text ∧
      (∀ no, q.names = some no → ∀ ni, src.names = some ni → V.names = some (Page.memcpyNames no ni)) := by
    unfold Page.memcpyPage
    simp only [e1, e2, e3]
    by_cases htz : p.textsize.1 = 0
    · have hs0 : src.textsize.1 = 0 := by rw [im.tsz, if_pos htz]
      have hx0 : src.text = [] := by
        rw [im.txt, List.eq_nil_of_length_eq_zero (ht1.trans htz)]; simp
      have hq0 : q.text = [] := by
        rw [iv.txt, List.eq_nil_of_length_eq_zero (ht1.trans htz)]; simp
      rw [if_neg (by simp [hs0])]
      refine ⟨_, _, rfl, ?_⟩
      cases hn : src.names <;> simp_all
    · have htn := hr.txt.resolve_right htz
      have ht20 : p.textsize.2 ≠ 0 := fun e => htz (hz.2 e)
      have c : src.textsize.1 ≠ 0 ∧ src.textsize.2 ≠ 0 := by rw [im.tsz, if_neg htz]; exact ⟨by simp, ht20⟩
      have ct : Page.copyText q.text 0 src.text = .ok src.text := by
        apply Page.copyText_same _ _ p.textsize.2
        · rw [iv.txt, im.txt, l1 _ _ (by omega) hyn, l1 _ _ (by omega) hx]
        · rw [im.txt]; intro r hrr; exact ht2 r (List.mem_of_mem_drop (List.mem_of_mem_take hrr))
        · rw [iv.txt]; intro r hrr; exact ht2 r (List.mem_of_mem_drop (List.mem_of_mem_take hrr))
      rw [if_pos c]
      simp only [Nat.lt_irrefl, or_self, if_false]
      cases hn : src.names with
      | none =>
        simp only
        rw [ct]
        exact ⟨_, _, rfl, rfl, rfl, rfl, rfl, by intro no _ ni h; cases h⟩
      | some ni =>
        simp only
        rw [ct]
        refine ⟨_, _, rfl, rfl, rfl, rfl, rfl, ?_⟩
        intro no hno ni' h; cases h
        simp [hno]
  obtain ⟨V, b, hV, h1, h2, h3, h4, h5⟩ := key
  unfold writeRow
  rw [hq, hV]
  simp only [Res.bind_ok]
  congr 1
  have hsetl : (π.set o x).length = π.length := by simp
  have part : ∀ {γ : Type} (l : List γ), l.length = n →
      putAt (pick π l) o ((l.drop x).take 1) = pick (π.set o x) l := by
    intro γ l h
    rw [pick_set π l o x (by rw [h]; exact hb) (by omega) (by omega), drop_take_one l x (by omega)]
  apply Rows.pageExt
  · show (match V.vector with | some xs => _ | none => _) = _
    rw [h1, im.vec, iv.vec]
    cases hv : p.vector with
    | none => simp [gather, hv]
    | some v => simp [gather, hv, part v (hr.vec v hv)]
  · show (match V.matrix with | some xs => _ | none => _) = _
    rw [h2, im.mat, iv.mat]
    cases hv : p.matrix with
    | none => simp [gather, hv]
    | some m => simp [gather, hv, part m.rows (hr.mat m hv)]
  · show (match V.weights with | some xs => _ | none => _) = _
    rw [h3, im.wts, iv.wts]
    cases hv : p.weights with
    | none => simp [gather, hv]
    | some v => simp [gather, hv, part v (hr.wts v hv)]
  · show putAt (pick π p.text) o V.text = pick (π.set o x) p.text
    rw [h4, im.txt]
    rcases hr.txt with h | h
    · exact part p.text (by omega)
    · have : p.text = [] := List.eq_nil_of_length_eq_zero (ht1.trans h)
      simp [this, pick_nil, putAt]
  · show (match V.names with | some xs => _ | none => _) = _
    cases hn : p.names with
    | none => simp only [gather, hn, Option.map_none]; cases V.names <;> rfl
    | some nm =>
      obtain ⟨m, m1, m2, m3, m4, m5⟩ := im.nms nm hn
      have hqn : q.names = some (rowNames { nm with row := pick π nm.row } o) := by
        rw [← hq]; simp [rowView, gather, hn]
      have hrow : (rowNames { nm with row := pick π nm.row } o).row = (nm.row.drop y).take 1 := by
        rw [rowNames_row]
        rcases hr.nms nm hn with h | h
        · exact take1_pick π nm.row o y (by rw [h]; exact hb) hy
        · simp [h, pick_nil]
      have hlen : m.row.length = (rowNames { nm with row := pick π nm.row } o).row.length := by
        rw [hrow, m2]
        rcases hr.nms nm hn with h | h
        · rw [l1 _ _ h hx, l1 _ _ h hyn]
        · simp [h]
      rw [h5 _ hqn _ m1]
      obtain ⟨t, v, ht⟩ := memcpyNames_into (rowNames { nm with row := pick π nm.row } o) m m3 m4 hlen
      rw [ht]
      simp only [gather, hn, Option.map_some, Option.some.injEq]
      rw [← hlen, List.take_length, m2]
      have : putAt (pick π nm.row) o ((nm.row.drop x).take 1) = pick (π.set o x) nm.row := by
        rcases hr.nms nm hn with h | h
        · exact part nm.row h
        · simp [h, pick_nil, putAt]
      rw [this]; rfl
  · simp only [putRows, gather, hsetl]
  · rfl

theorem gather_range {p : Page α} {n : Nat} (hp : p.WF) (hr : Rect p n) : gather (List.range n) p = p := by
  obtain ⟨hm, ⟨ht1, ht2⟩, hz⟩ := hp
  have pr : ∀ {γ : Type} (l : List γ), l.length = n → pick (List.range n) l = l := by
    intro γ l h; rw [← h]; exact pick_range l
  apply Rows.pageExt
  · simp only [gather]
    cases h : p.vector with
    | none => rfl
    | some v => simp [pr v (hr.vec v h)]
  · simp only [gather]
    cases h : p.matrix with
    | none => rfl
    | some v => simp [pr v.rows (hr.mat v h)]
  · simp only [gather]
    cases h : p.weights with
    | none => rfl
    | some v => simp [pr v (hr.wts v h)]
  · simp only [gather]
    rcases hr.txt with h | h
    · exact pr _ (by omega)
    · rw [List.eq_nil_of_length_eq_zero (ht1.trans h)]; exact pick_nil _
  · simp only [gather]
    cases h : p.names with
    | none => rfl
    | some nm =>
      rcases hr.nms nm h with h' | h'
      · simp [pr nm.row h']
      · simp only [Option.map_some, h', pick_nil, Option.some.injEq]
        obtain ⟨a, b, c, d, e, f, g, i⟩ := nm
        simp only at h'; subst h'; rfl
  · simp only [gather, List.length_range]
    rcases hr.txt with h | h
    · split
      · next h0 => rw [← h0]
      · rw [← h]
    · rw [if_pos h, ← h]
  · rfl

/-! ### the cycle-following loop -/

/-- `perm` is a permutation of `0 .. n-1`. -/
structure IsPerm (perm : List Nat) (n : Nat) : Prop where
  len : perm.length = n
  lt : ∀ (i t : Nat), perm[i]? = some t → t < n
  inj : ∀ (i j t : Nat), perm[i]? = some t → perm[j]? = some t → i = j

theorem isPerm_of_perm {perm : List Nat} {n : Nat} (h : perm.Perm (List.range n)) : IsPerm perm n := by
  refine ⟨by simpa using h.length_eq, ?_, ?_⟩
  · intro i t ht
    have := h.mem_iff.1 (List.mem_of_getElem? ht)
    simpa using this
  · intro i j t hi hj
    have nd : perm.Nodup := h.nodup_iff.2 List.nodup_range
    obtain ⟨h1, e1⟩ := List.getElem?_eq_some_iff.1 hi
    obtain ⟨h2, e2⟩ := List.getElem?_eq_some_iff.1 hj
    have pw := List.pairwise_iff_getElem.1 nd
    rcases Nat.lt_trichotomy i j with h | h | h
    · exact absurd (e1.trans e2.symm) (pw i j h1 h2 h)
    · exact h
    · exact absurd (e2.trans e1.symm) (pw j i h2 h1 h)

/-- Loop invariant: `i` is the open position of the cycle being followed (none between cycles), `start` where
it began. Marked positions other than `i` hold their final row, all others their original one; every
marked position other than `start` has a marked predecessor other than `i`. -/
structure Inv (perm : List Nat) (n : Nat) (open_ : Option (Nat × Nat)) (marks : List Bool) (idx : List Nat) : Prop where
  mlen : marks.length = n
  ilen : idx.length = n
  done : ∀ j : Nat, marks[j]? = some true → (∀ s i, open_ = some (s, i) → j ≠ i) → idx[j]? = perm[j]?
  todo : ∀ j : Nat, marks[j]? = some false → idx[j]? = some j
  here : ∀ s i, open_ = some (s, i) → marks[i]? = some true ∧ marks[s]? = some true ∧ idx[i]? = some i
  pred : ∀ j : Nat, marks[j]? = some true → (∀ s i, open_ = some (s, i) → j ≠ s) →
    ∃ j' : Nat, marks[j']? = some true ∧ perm[j']? = some j ∧ (∀ s i, open_ = some (s, i) → j' ≠ i)

theorem Inv.below {perm n op marks idx} (hp : IsPerm perm n) (h : Inv perm n op marks idx) : Below idx n := by
  intro x hx
  obtain ⟨j, hj⟩ := List.getElem?_of_mem hx
  have hjl : j < n := by rw [← h.ilen]; exact (List.getElem?_eq_some_iff.1 hj).1
  have hm : j < marks.length := by rw [h.mlen]; exact hjl
  cases hmj : marks[j] with
  | false =>
    have := h.todo j (by rw [List.getElem?_eq_getElem hm, hmj])
    rw [hj] at this; cases this; exact hjl
  | true =>
    by_cases ho : ∀ s i, op = some (s, i) → j ≠ i
    · have := h.done j (by rw [List.getElem?_eq_getElem hm, hmj]) ho
      rw [hj] at this; exact hp.lt j x this.symm
    · simp only [Classical.not_forall, Classical.not_not] at ho
      obtain ⟨s, i, e, rfl⟩ := ho
      have := (h.here s j e).2.2
      rw [hj] at this; cases this; exact hjl

theorem count_set_true (l : List Bool) (t : Nat) (h : l[t]? = some false) :
    (l.set t true).count false + 1 = l.count false := by
  obtain ⟨ht, e⟩ := List.getElem?_eq_some_iff.1 h
  rw [List.count_set ht]
  have : 0 < l.count false := List.count_pos_iff.2 (e ▸ List.getElem_mem ht)
  simp [e]; omega

theorem cycle_ok {p : Page α} {n : Nat} (hp : p.WF) (hr : Rect p n) (perm : List Nat) (hperm : IsPerm perm n)
    (start : Nat) : ∀ (fuel i : Nat) (marks : List Bool) (idx : List Nat),
    Inv perm n (some (start, i)) marks idx → marks.count false < fuel →
    ∃ idx' marks' i', cycle perm start fuel i marks (gather idx p) = .ok (gather idx' p, marks', i') ∧
      Inv perm n (some (start, i')) marks' idx' ∧ perm[i']? = some start ∧
      marks'.count false ≤ marks.count false ∧ ∀ j : Nat, marks[j]? = some true → marks'[j]? = some true := by
  intro fuel
  induction fuel with
  | zero => intro i marks idx _ h; omega
  | succ fuel ih =>
    intro i marks idx hI hf
    obtain ⟨hi1, hi2, hi3⟩ := hI.here start i rfl
    have hin : i < n := by rw [← hI.mlen]; exact (List.getElem?_eq_some_iff.1 hi1).1
    obtain ⟨t, ht⟩ : ∃ t, perm[i]? = some t := ⟨_, List.getElem?_eq_getElem (by rw [hperm.len]; exact hin)⟩
    have htn := hperm.lt i t ht
    simp only [cycle, rd_eq_ok.2 ht, Res.bind_ok]
    by_cases hts : t = start
    · rw [if_pos hts]
      exact ⟨idx, marks, i, rfl, hI, by rw [ht, hts], Nat.le_refl _, fun _ h => h⟩
    · rw [if_neg hts]
      -- `t` has not been touched
      have htm : marks[t]? = some false := by
        have hlt : t < marks.length := by rw [hI.mlen]; exact htn
        cases hmt : marks[t] with
        | false => rw [List.getElem?_eq_getElem hlt, hmt]
        | true =>
          exfalso
          obtain ⟨j', -, h2, h3⟩ := hI.pred t (by rw [List.getElem?_eq_getElem hlt, hmt])
            (fun s i' e => by cases e; exact hts)
          exact h3 start i rfl (hperm.inj j' i t h2 ht)
      have hti : t ≠ i := by intro e; rw [e, hi1] at htm; cases htm
      have hb := hI.below hperm
      have im := image_view hp hr idx hb t t (hI.todo t htm)
      rw [writeRow_eq hp hr idx hb hI.ilen i t hin htn _ im]
      simp only [Res.bind_ok]
      rw [wr_of_lt (by rw [hI.mlen]; exact htn)]
      simp only [Res.bind_ok]
      have htl : t < marks.length := by rw [hI.mlen]; exact htn
      have hcnt := count_set_true marks t htm
      have hmk : ∀ j : Nat, (marks.set t true)[j]? = some true ↔ j = t ∨ marks[j]? = some true := by
        intro j
        by_cases hj : j = t
        · subst hj; simp [List.getElem?_set_self htl]
        · rw [List.getElem?_set_ne (Ne.symm hj)]; simp [hj]
      have hmkf : ∀ j : Nat, (marks.set t true)[j]? = some false → j ≠ t ∧ marks[j]? = some false := by
        intro j h
        by_cases hj : j = t
        · subst hj; rw [List.getElem?_set_self htl] at h; cases h
        · rw [List.getElem?_set_ne (Ne.symm hj)] at h; exact ⟨hj, h⟩
      have hI' : Inv perm n (some (start, t)) (marks.set t true) (idx.set i t) := by
        refine ⟨by simp [hI.mlen], by simp [hI.ilen], ?_, ?_, ?_, ?_⟩
        · intro j hj hne
          have hjt : j ≠ t := hne start t rfl
          have hj' := ((hmk j).1 hj).resolve_left hjt
          by_cases hji : j = i
          · subst hji
            rw [List.getElem?_set_self (by rw [hI.ilen]; exact hin), ht]
          · rw [List.getElem?_set_ne (Ne.symm hji)]
            exact hI.done j hj' (fun s i' e => by cases e; exact hji)
        · intro j hj
          obtain ⟨hjt, hj'⟩ := hmkf j hj
          have hji : j ≠ i := by intro e; rw [e, hi1] at hj'; cases hj'
          rw [List.getElem?_set_ne (Ne.symm hji)]
          exact hI.todo j hj'
        · intro s i' e
          cases e
          refine ⟨(hmk t).2 (Or.inl rfl), (hmk start).2 (Or.inr hi2), ?_⟩
          rw [List.getElem?_set_ne (Ne.symm hti)]
          exact hI.todo t htm
        · intro j hj hne
          by_cases hjt : j = t
          · subst hjt
            exact ⟨i, (hmk i).2 (Or.inr hi1), ht, fun s i' e => by cases e; exact Ne.symm hti⟩
          · have hj' := ((hmk j).1 hj).resolve_left hjt
            obtain ⟨j', h1, h2, h3⟩ := hI.pred j hj' (fun s i' e => by cases e; exact hne start t rfl)
            refine ⟨j', (hmk j').2 (Or.inr h1), h2, fun s i' e => ?_⟩
            cases e
            intro e; rw [e, htm] at h1; cases h1
      obtain ⟨idx', marks', i', c1, c2, c3, c4, c5⟩ := ih t _ _ hI' (by omega)
      exact ⟨idx', marks', i', c1, c2, c3, by omega, fun j hj => c5 j ((hmk j).2 (Or.inr hj))⟩

theorem minUnsorted_some {marks : List Bool} {f s : Nat} (h : minUnsorted marks f = some s) :
    f ≤ s ∧ marks[s]? = some false ∧ ∀ j, f ≤ j → j < s → marks[j]? = some true := by
  unfold minUnsorted at h
  obtain ⟨hs1, hs2⟩ : s ∈ List.range marks.length ∧ _ := List.mem_filter.1 (List.mem_of_mem_head? (by rw [h]; rfl))
  simp only [Bool.and_eq_true, decide_eq_true_eq, beq_iff_eq] at hs2
  refine ⟨hs2.1, hs2.2, ?_⟩
  intro j hfj hjs
  have hsl : s < marks.length := by simpa using hs1
  have hjl : j < marks.length := by omega
  cases hm : marks[j] with
  | true => rw [List.getElem?_eq_getElem hjl, hm]
  | false =>
    exfalso
    have hmem : j ∈ (List.range marks.length).filter (fun i => decide (f ≤ i) && marks[i]? == some false) := by
      rw [List.mem_filter]
      refine ⟨by simpa using hjl, ?_⟩
      simp [hfj, List.getElem?_eq_getElem hjl, hm]
    generalize hL : (List.range marks.length).filter (fun i => decide (f ≤ i) && marks[i]? == some false) = L at h hmem
    have hpw : L.Pairwise (· < ·) := by
      rw [← hL]; exact List.Pairwise.filter _ List.pairwise_lt_range
    cases L with
    | nil => simp at h
    | cons a L =>
      simp only [List.head?_cons, Option.some.injEq] at h
      subst h
      rcases List.mem_cons.1 hmem with e | e
      · omega
      · have := (List.pairwise_cons.1 hpw).1 j e; omega

theorem minUnsorted_none {marks : List Bool} {f : Nat} (h : minUnsorted marks f = none) :
    ∀ j, f ≤ j → j < marks.length → marks[j]? = some true := by
  intro j hfj hjl
  unfold minUnsorted at h
  rw [List.head?_eq_none_iff, List.filter_eq_nil_iff] at h
  have := h j (by simpa using hjl)
  cases hm : marks[j] with
  | true => rw [List.getElem?_eq_getElem hjl, hm]
  | false => simp [hfj, List.getElem?_eq_getElem hjl, hm] at this

theorem outer_ok (junk : α) {p : Page α} {n : Nat} (hp : p.WF) (hr : Rect p n) (perm : List Nat) (hperm : IsPerm perm n) :
    ∀ (fuel start : Nat) (marks : List Bool) (idx : List Nat),
    Inv perm n none marks idx → marks.count false ≤ fuel → (∀ j, j < start → j < n → marks[j]? = some true) →
    outer junk perm fuel start marks (gather idx p) = .ok (gather perm p) := by
  have fin : ∀ (start : Nat) (marks : List Bool) (idx : List Nat), Inv perm n none marks idx →
      (∀ j, j < start → j < n → marks[j]? = some true) → minUnsorted marks start = none → idx = perm := by
    intro start marks idx hI hst hm
    apply List.ext_getElem?
    intro j
    by_cases hj : j < n
    · apply hI.done j _ (by simp)
      by_cases hjs : j < start
      · exact hst j hjs hj
      · exact minUnsorted_none hm j (by omega) (by rw [hI.mlen]; exact hj)
    · rw [List.getElem?_eq_none (by rw [hI.ilen]; omega), List.getElem?_eq_none (by rw [hperm.len]; omega)]
  intro fuel
  induction fuel with
  | zero =>
    intro start marks idx hI hf hst
    have hm : minUnsorted marks start = none := by
      cases h : minUnsorted marks start with
      | none => rfl
      | some s =>
        exfalso
        have := (minUnsorted_some h).2.1
        have hpos : 0 < marks.count false := List.count_pos_iff.2 (List.mem_of_getElem? this)
        omega
    simp only [outer, hm, if_true, fin start marks idx hI hst hm]
  | succ fuel ih =>
    intro start marks idx hI hf hst
    simp only [outer]
    cases h : minUnsorted marks start with
    | none => simp only [fin start marks idx hI hst h]
    | some s =>
      obtain ⟨s1, s2, s3⟩ := minUnsorted_some h
      have hsl : s < marks.length := (List.getElem?_eq_some_iff.1 s2).1
      have hsn : s < n := by rw [← hI.mlen]; exact hsl
      have hb := hI.below hperm
      obtain ⟨st, e1, im⟩ := image_save junk hp hr idx hb s s (hI.todo s s2)
      have hmk : ∀ j : Nat, (marks.set s true)[j]? = some true ↔ j = s ∨ marks[j]? = some true := by
        intro j
        by_cases hj : j = s
        · subst hj; simp [List.getElem?_set_self hsl]
        · rw [List.getElem?_set_ne (Ne.symm hj)]; simp [hj]
      have hmkf : ∀ j : Nat, (marks.set s true)[j]? = some false → j ≠ s ∧ marks[j]? = some false := by
        intro j h
        by_cases hj : j = s
        · subst hj; rw [List.getElem?_set_self hsl] at h; cases h
        · rw [List.getElem?_set_ne (Ne.symm hj)] at h; exact ⟨hj, h⟩
      have hI1 : Inv perm n (some (s, s)) (marks.set s true) idx := by
        refine ⟨by simp [hI.mlen], hI.ilen, ?_, ?_, ?_, ?_⟩
        · intro j hj hne
          exact hI.done j (((hmk j).1 hj).resolve_left (hne s s rfl)) (by simp)
        · intro j hj; exact hI.todo j (hmkf j hj).2
        · intro a b e; cases e
          exact ⟨(hmk s).2 (Or.inl rfl), (hmk s).2 (Or.inl rfl), hI.todo s s2⟩
        · intro j hj hne
          obtain ⟨j', h1, h2, -⟩ := hI.pred j (((hmk j).1 hj).resolve_left (hne s s rfl)) (by simp)
          refine ⟨j', (hmk j').2 (Or.inr h1), h2, fun a b e => ?_⟩
          cases e
          intro e; rw [e, s2] at h1; cases h1
      have hcnt := count_set_true marks s s2
      have hcl : marks.count false ≤ n := by rw [← hI.mlen]; exact List.count_le_length
      obtain ⟨idx', marks', i', c1, c2, c3, c4, c5⟩ :=
        cycle_ok hp hr perm hperm s perm.length s _ idx hI1 (by rw [hperm.len]; omega)
      simp only [e1, Res.bind_ok, wr_of_lt hsl, c1]
      obtain ⟨k1, k2, k3⟩ := c2.here s i' rfl
      have hin : i' < n := by rw [← c2.mlen]; exact (List.getElem?_eq_some_iff.1 k1).1
      rw [writeRow_eq hp hr idx' (c2.below hperm) c2.ilen i' s hin hsn st im]
      simp only [Res.bind_ok]
      apply ih
      · refine ⟨c2.mlen, by simp [c2.ilen], ?_, ?_, by simp, ?_⟩
        · intro j hj _
          by_cases hji : j = i'
          · subst hji; rw [List.getElem?_set_self (by rw [c2.ilen]; exact hin), c3]
          · rw [List.getElem?_set_ne (Ne.symm hji)]
            exact c2.done j hj (fun a b e => by cases e; exact hji)
        · intro j hj
          have hji : j ≠ i' := by intro e; rw [e, k1] at hj; cases hj
          rw [List.getElem?_set_ne (Ne.symm hji)]
          exact c2.todo j hj
        · intro j hj _
          by_cases hjs : j = s
          · subst hjs; exact ⟨i', k1, c3, by simp⟩
          · obtain ⟨j', h1, h2, -⟩ := c2.pred j hj (fun a b e => by cases e; exact hjs)
            exact ⟨j', h1, h2, by simp⟩
      · omega
      · intro j hj hjn
        apply c5 j
        rw [hmk]
        by_cases hjs : j < start
        · exact Or.inr (hst j hjs hjn)
        · exact Or.inr (s3 j (by omega) hj)

theorem rearrange_eq (junk : α) {p : Page α} {n : Nat} (hp : p.WF) (hr : Rect p n) (perm : List Nat)
    (hperm : perm.Perm (List.range n)) : rearrange junk p perm = .ok (gather perm p) := by
  have ip := isPerm_of_perm hperm
  have hI : Inv perm n none (List.replicate perm.length false) (List.range n) := by
    refine ⟨by simp [ip.len], by simp, ?_, ?_, by simp, ?_⟩
    · intro j hj; simp [List.getElem?_replicate] at hj
    · intro j hj
      rw [List.getElem?_replicate] at hj
      split at hj
      · next h => rw [ip.len] at h; exact List.getElem?_range h
      · cases hj
    · intro j hj; simp [List.getElem?_replicate] at hj
  have h := outer_ok junk hp hr perm ip perm.length 0 (List.replicate perm.length false) (List.range n)
    hI (by simp) (by intro j h; omega)
  rw [gather_range hp hr] at h
  exact h

end Apop.Sort
