import Verif.Rows.Model
import Verif.Data.CopyLemmas

namespace Apop.Rows
open Apop.Views
variable {α β : Type}

/-- The sublist of the elements whose index satisfies `keep`. -/
def keepBy (keep : Nat → Bool) (l : List β) : List β :=
  (l.zipIdx.filter (fun x => keep x.2)).map (·.1)

/-- How many of the first `i` indices are kept. -/
def kept (keep : Nat → Bool) (i : Nat) : Nat := ((List.range i).filter keep).length

theorem kept_succ (keep : Nat → Bool) (i : Nat) :
    kept keep (i + 1) = kept keep i + (if keep i then 1 else 0) := by
  unfold kept
  rw [List.range_succ, List.filter_append, List.length_append]
  congr 1
  by_cases h : keep i = true <;> simp [h]

theorem kept_le (keep : Nat → Bool) (i : Nat) : kept keep i ≤ i := by
  unfold kept
  exact Nat.le_trans (List.length_filter_le _ _) (by simp)

theorem keepBy_append (keep : Nat → Bool) (l r : List β) :
    keepBy keep (l ++ r) = keepBy keep l ++ keepBy (fun i => keep (l.length + i)) r := by
  unfold keepBy
  rw [List.zipIdx_append, List.filter_append, List.map_append]
  congr 1
  simp only [Nat.zero_add]
  generalize l.length = k
  suffices h : ∀ s, ((r.zipIdx (k + s)).filter (fun x => keep x.2)).map (·.1) =
      ((r.zipIdx s).filter (fun x => keep (k + x.2))).map (·.1) from h 0
  induction r with
  | nil => simp
  | cons a r ih =>
    intro s
    simp only [List.zipIdx_cons, List.filter_cons]
    by_cases h : keep (k + s) = true
    · simp only [h, if_true, List.map_cons, Nat.add_assoc, ih (s + 1)]
    · simp only [h, Nat.add_assoc]
      exact ih (s + 1)

theorem keepBy_take_succ (keep : Nat → Bool) (l : List β) (i : Nat) (h : i < l.length) :
    keepBy keep (l.take (i + 1)) = keepBy keep (l.take i) ++ (if keep i then [l[i]] else []) := by
  rw [List.take_succ_eq_append_getElem h, keepBy_append]
  congr 1
  have hl : (l.take i).length = i := by simp; omega
  simp only [keepBy, hl, List.zipIdx_cons, List.zipIdx_nil, List.filter_cons, Nat.add_zero,
    List.filter_nil]
  by_cases hk : keep i = true <;> simp [hk]

theorem keepBy_length (keep : Nat → Bool) (l : List β) : (keepBy keep l).length = kept keep l.length := by
  suffices h : ∀ i, i ≤ l.length → (keepBy keep (l.take i)).length = kept keep i by
    have := h l.length (Nat.le_refl _); rwa [List.take_length] at this
  intro i
  induction i with
  | zero => intro _; simp [keepBy, kept]
  | succ i ih =>
    intro hi
    rw [keepBy_take_succ keep l i (by omega), List.length_append, ih (by omega), kept_succ]
    by_cases hk : keep i = true <;> simp [hk]

theorem keepBy_take_length (keep : Nat → Bool) (l : List β) (i : Nat) (h : i ≤ l.length) :
    (keepBy keep (l.take i)).length = kept keep i := by
  rw [keepBy_length]; congr 1; simp; omega

theorem keepBy_mem (keep : Nat → Bool) (l : List β) (x : β) (h : x ∈ keepBy keep l) : x ∈ l := by
  unfold keepBy at h
  rw [List.mem_map] at h
  obtain ⟨⟨a, i⟩, h1, rfl⟩ := h
  exact List.fst_mem_of_mem_zipIdx (List.mem_filter.1 h1).1

/-- The state of one list after `i` rows have been processed. -/
def comp (keep : Nat → Bool) (i : Nat) (l : List β) : List β :=
  keepBy keep (l.take i) ++ l.drop (kept keep i)

theorem comp_zero (keep : Nat → Bool) (l : List β) : comp keep 0 l = l := by
  simp [comp, keepBy, kept]

theorem comp_nil (keep : Nat → Bool) (i : Nat) : comp keep i ([] : List β) = [] := by
  simp [comp, keepBy]

theorem comp_length (keep : Nat → Bool) (l : List β) (i : Nat) (h : i ≤ l.length) :
    (comp keep i l).length = l.length := by
  have := kept_le keep i
  simp only [comp, List.length_append, keepBy_take_length keep l i h, List.length_drop]
  omega

theorem comp_getElem? (keep : Nat → Bool) (l : List β) (i k : Nat) (h : i ≤ l.length) (hk : kept keep i ≤ k) :
    (comp keep i l)[k]? = l[k]? := by
  have e := keepBy_take_length keep l i h
  unfold comp
  rw [List.getElem?_append_right (by omega), List.getElem?_drop]
  congr 1; omega

theorem comp_drop (keep : Nat → Bool) (l : List β) (i k : Nat) (h : i ≤ l.length) (hk : kept keep i ≤ k) :
    (comp keep i l).drop k = l.drop k := by
  apply List.ext_getElem?
  intro m
  rw [List.getElem?_drop, List.getElem?_drop, comp_getElem? keep l i _ h (by omega)]

theorem comp_skip (keep : Nat → Bool) (l : List β) (i : Nat) (h : i < l.length) (hk : keep i = false) :
    comp keep (i + 1) l = comp keep i l := by
  unfold comp
  rw [keepBy_take_succ keep l i h, kept_succ]
  simp [hk]

theorem comp_step (keep : Nat → Bool) (l : List β) (i : Nat) (h : i < l.length) (hk : keep i = true) :
    comp keep (i + 1) l = putAt (comp keep i l) (kept keep i) [l[i]] := by
  have e := keepBy_take_length keep l i (Nat.le_of_lt h)
  have hd := comp_drop keep l i (kept keep i + 1) (by omega) (by omega)
  unfold putAt
  simp only [List.length_cons, List.length_nil, Nat.zero_add, hd]
  unfold comp
  rw [keepBy_take_succ keep l i h, kept_succ]
  simp [hk, ← e]

theorem kept_eq_self (keep : Nat → Bool) (i : Nat) (h : kept keep i = i) : ∀ k < i, keep k = true := by
  unfold kept at h
  intro k hk
  have h2 : (List.range i).filter keep = List.range i :=
    (List.filter_sublist (p := keep)).eq_of_length (by simpa using h)
  have h3 : k ∈ (List.range i).filter keep := by rw [h2]; exact List.mem_range.2 hk
  exact (List.mem_filter.1 h3).2

theorem keepBy_all (keep : Nat → Bool) (l : List β) (h : ∀ k < l.length, keep k = true) : keepBy keep l = l := by
  unfold keepBy
  rw [List.filter_eq_self.2]
  · simp
  · rintro ⟨a, i⟩ hx
    have := List.snd_lt_of_mem_zipIdx hx
    exact h i (by simpa using this)

theorem comp_same (keep : Nat → Bool) (l : List β) (i : Nat) (h : i < l.length) (hk : keep i = true)
    (he : kept keep i = i) : comp keep (i + 1) l = comp keep i l := by
  have h1 := kept_eq_self keep i he
  unfold comp
  rw [kept_succ, he]
  have : ∀ k < i + 1, keep k = true := by
    intro k hk'
    by_cases hki : k = i
    · rw [hki, hk]
    · exact h1 k (by omega)
  rw [keepBy_all keep _ (fun k hk' => this k (by simp at hk'; omega)),
    keepBy_all keep _ (fun k hk' => this k (by simp at hk'; omega))]
  simp [hk]

theorem comp_full (keep : Nat → Bool) (l : List β) : (comp keep l.length l).take (kept keep l.length) = keepBy keep l := by
  unfold comp
  rw [List.take_length, List.take_append_of_le_length (by rw [keepBy_length]; exact Nat.le_refl _), List.take_of_length_le (by rw [keepBy_length]; exact Nat.le_refl _)]

/-! ### the whole page -/

/-- All row-indexed parts of a set transformed in the same way. -/
def mapRows (f : ∀ {β : Type}, List β → List β) (p : Page α) : Page α :=
  { p with
    vector := p.vector.map f
    matrix := p.matrix.map (fun m => { m with rows := f m.rows })
    weights := p.weights.map f
    text := f p.text
    names := p.names.map (fun n => { n with row := f n.row }) }

/-- All parts have `n` rows; text and row names may also be absent. -/
structure Rect (p : Page α) (n : Nat) : Prop where
  vec : ∀ v, p.vector = some v → v.length = n
  mat : ∀ m, p.matrix = some m → m.size1 = n
  wts : ∀ v, p.weights = some v → v.length = n
  txt : p.textsize.1 = n ∨ p.textsize.1 = 0
  nms : ∀ nm, p.names = some nm → nm.row.length = n ∨ nm.row = []

theorem rowNames_row (n : Names) (r : Nat) : (rowNames n r).row = (n.row.drop r).take 1 := by
  unfold rowNames
  by_cases h : n.row.length ≤ r
  · simp [List.drop_eq_nil_of_le h]
  · have : min 1 (n.row.length - r) = 1 := by omega
    simp [this]

theorem memcpyNames_row (n : Names) (o i : Nat) (hl : o ≤ i) :
    ∃ t, Page.memcpyNames (rowNames n o) (rowNames n i) =
      { rowNames n o with
        title := t
        row := ((n.row.drop i).take 1) ++ ((n.row.drop o).take 1).drop ((n.row.drop i).take 1).length } := by
  refine ⟨some (Names.printS n.title), ?_⟩
  have hri := rowNames_row n i
  have hro := rowNames_row n o
  have hlen : ((n.row.drop i).take 1).length ≤ ((n.row.drop o).take 1).length := by simp; omega
  generalize (n.row.drop i).take 1 = ri at *
  generalize (n.row.drop o).take 1 = ro at *
  have hci : (rowNames n i).col = n.col := rfl
  have hco : (rowNames n o).col = n.col := rfl
  have hti : (rowNames n i).text = n.text := rfl
  have hto : (rowNames n o).text = n.text := rfl
  have hvi : (rowNames n i).vector = n.vector := rfl
  have hvo : (rowNames n o).vector = n.vector := rfl
  have htt : (rowNames n i).title = n.title := rfl
  generalize rowNames n i = ni at *
  generalize rowNames n o = no at *
  unfold Page.memcpyNames
  obtain ⟨mt, mv, mc, mr, mx, a, b, c⟩ := no
  simp only at *
  subst hro hco hto hvo
  rw [hvi, hri, hci, hti, htt]
  have fin : ∀ mv : Option CStr, Page.copyList 't' Names.text (fun n l => { n with text := l })
      (Page.copyList 'c' Names.col (fun n l => { n with col := l })
        (Page.copyList 'r' Names.row (fun n l => { n with row := l })
          ⟨some (Names.printS n.title), mv, n.col, mr, n.text, a, b, c⟩ 0 ri) 0 n.col) 0 n.text =
      ⟨some (Names.printS n.title), mv, n.col, ri ++ mr.drop ri.length, n.text, a, b, c⟩ := by
    intro mv
    rw [Page.copyList_put 'r' Names.row _ (by simp) (by simp) (by simp) _ 0 _ (by simpa using hlen)]
    simp only [List.take_zero, List.nil_append, Nat.zero_add]
    rw [Page.copyList_put 'c' Names.col _ (by simp) (by simp) (by simp) _ 0 _ (by simp)]
    simp only [List.take_zero, List.nil_append, Nat.zero_add, List.drop_length, List.append_nil]
    rw [Page.copyList_put 't' Names.text _ (by simp) (by simp) (by simp) _ 0 _ (by simp)]
    simp only [List.take_zero, List.nil_append, Nat.zero_add, List.drop_length, List.append_nil]
  cases hv : n.vector with
  | none => exact fin none
  | some v => exact fin (some v)

theorem drop_take_one (l : List β) (i : Nat) (h : i < l.length) : (l.drop i).take 1 = [l[i]] := by
  rw [List.drop_eq_getElem_cons h]; rfl

/-- One part (a list of `n` rows, or absent) under the copying of row `i` to row `o`. -/
theorem part_step (keep : Nat → Bool) (part : Option (List β)) (n i : Nat) (hn : ∀ l, part = some l → l.length = n)
    (hi : i < n) (hk : keep i = true) :
    let q := part.map (comp keep i)
    let src := q.bind (fun l => cut l i 1)
    let dst := q.bind (fun l => cut l (kept keep i) 1)
    Page.partError src dst (fun a b => a.length == b.length) = none ∧
    (match src.or dst with
      | some xs => q.map (fun l => putAt l (kept keep i) xs)
      | none => q) = part.map (comp keep (i + 1)) := by
  have ho := kept_le keep i
  cases part with
  | none => simp [Page.partError]
  | some l =>
    have hl := hn l rfl
    have hc := comp_length keep l i (by omega)
    have c1 : ∀ k, k < n → cut (comp keep i l) k 1 = some (((comp keep i l).drop k).take 1) := by
      intro k hk; unfold cut; rw [if_neg (by omega)]
    simp only [Option.map_some, Option.bind_some, c1 i hi, c1 (kept keep i) (by omega)]
    refine ⟨?_, ?_⟩
    · simp [Page.partError]; omega
    · simp only [Option.some_or, Option.some.injEq, comp_drop keep l i i (by omega) ho]
      rw [comp_step keep l i (by omega) hk, drop_take_one l i (by omega)]


theorem copyRow_eq (keep : Nat → Bool) (p : Page α) (n i : Nat) (hp : p.WF) (hr : Rect p n) (hi : i < n)
    (hk : keep i = true) (hne : kept keep i ≠ i) :
    copyRow (mapRows (comp keep i) p) (kept keep i) i = .ok (mapRows (comp keep (i + 1)) p) := by
  have ho := kept_le keep i
  have hoi : kept keep i < i := by omega
  obtain ⟨hm, ⟨ht1, ht2⟩, hz⟩ := hp
  obtain ⟨v1, v2⟩ := part_step keep p.vector n i hr.vec hi hk
  obtain ⟨w1, w2⟩ := part_step keep p.weights n i hr.wts hi hk
  obtain ⟨m1, m2⟩ := part_step keep (p.matrix.map (·.rows)) n i (by
    intro l hl
    cases hmm : p.matrix with
    | none => simp [hmm] at hl
    | some m => simp [hmm] at hl; exact hl ▸ hr.mat m hmm) hi hk
  generalize hq : mapRows (comp keep i) p = q
  have qv : q.vector = p.vector.map (comp keep i) := by rw [← hq]; rfl
  have qw : q.weights = p.weights.map (comp keep i) := by rw [← hq]; rfl
  have qt : q.text = comp keep i p.text := by rw [← hq]; rfl
  have qs : q.textsize = p.textsize := by rw [← hq]; rfl
  have qn : q.names = p.names.map (fun n => { n with row := comp keep i n.row }) := by rw [← hq]; rfl
  have qm : q.matrix = p.matrix.map (fun m => { m with rows := comp keep i m.rows }) := by rw [← hq]; rfl
  have e1 : Page.partError (rowView q i 1).matrix (rowView q (kept keep i) 1).matrix
      (fun a b => a.size1 == b.size1 && a.cols == b.cols) = none := by
    show Page.partError (q.matrix.bind _) (q.matrix.bind _) _ = none
    rw [qm]
    cases hmm : p.matrix with
    | none => simp [Page.partError]
    | some m =>
      have hl := hr.mat m hmm
      have hc := comp_length keep m.rows i (by unfold Mat.size1 at hl; omega)
      unfold Mat.size1 at hl
      have c1 : ∀ k, k < n → cut (comp keep i m.rows) k 1 = some (((comp keep i m.rows).drop k).take 1) := by
        intro k hk; unfold cut; rw [if_neg (by omega)]
      simp only [Option.map_some, Option.bind_some, c1 i hi, c1 (kept keep i) (by omega)]
      simp [Page.partError, Mat.size1]; omega
  have e2 : Page.partError (rowView q i 1).vector (rowView q (kept keep i) 1).vector
      (fun a b => a.length == b.length) = none := by
    show Page.partError (q.vector.bind _) (q.vector.bind _) _ = none
    rw [qv]; exact v1
  have e3 : Page.partError (rowView q i 1).weights (rowView q (kept keep i) 1).weights
      (fun a b => a.length == b.length) = none := by
    show Page.partError (q.weights.bind _) (q.weights.bind _) _ = none
    rw [qw]; exact w1
  have key : ∃ V b, Page.memcpyPage (rowView q (kept keep i) 1) (rowView q i 1) = .ok (V, b) ∧
      V.vector = (rowView q i 1).vector.or (rowView q (kept keep i) 1).vector ∧
      V.matrix = (rowView q i 1).matrix.or (rowView q (kept keep i) 1).matrix ∧
      V.weights = (rowView q i 1).weights.or (rowView q (kept keep i) 1).weights ∧
      V.text = (rowView q i 1).text ∧
      V.names = q.names.map (fun n => Page.memcpyNames (rowNames n (kept keep i)) (rowNames n i)) := by
    unfold Page.memcpyPage
    simp only [e1, e2, e3]
    by_cases htz : p.textsize.1 = 0
    · have t0 : q.text = [] := by rw [qt, List.eq_nil_of_length_eq_zero (ht1.trans htz)]; exact comp_nil _ _
      have t1 : ∀ k, (rowView q k 1).textsize.1 = 0 := by
        intro k; simp only [rowView, qs]; rw [if_neg (by omega)]
      have t2 : ∀ k, (rowView q k 1).text = [] := by
        intro k; simp only [rowView, t0]; simp
      have c : ¬ ((rowView q i 1).textsize.1 ≠ 0 ∧ (rowView q i 1).textsize.2 ≠ 0) := by simp [t1]
      rw [if_neg c]
      refine ⟨_, _, rfl, ?_⟩
      cases hn : q.names <;> simp [rowView, hn, t0]
    · have htn : p.textsize.1 = n := hr.txt.resolve_right htz
      have c : (rowView q i 1).textsize.1 ≠ 0 ∧ (rowView q i 1).textsize.2 ≠ 0 := by
        simp only [rowView, qs]; rw [if_pos (by omega)]; exact ⟨by omega, fun h => htz (hz.2 h)⟩
      have ct : ∀ X : Page α, X.text = (rowView q (kept keep i) 1).text →
          Page.copyText X.text 0 (rowView q i 1).text = .ok (rowView q i 1).text := by
        intro X hX
        rw [hX]
        have hl : (comp keep i p.text).length = n := by rw [comp_length keep p.text i (by omega)]; omega
        have hmem : ∀ r ∈ comp keep i p.text, r.length = p.textsize.2 := by
          intro r hr'
          apply ht2
          unfold comp at hr'
          rcases List.mem_append.1 hr' with h | h
          · exact List.mem_of_mem_take (keepBy_mem _ _ _ h)
          · exact List.mem_of_mem_drop h
        have tx : ∀ k, k < n → (rowView q k 1).text = [(comp keep i p.text)[k]!] := by
          intro k hkn
          simp only [rowView, qs, qt]
          rw [if_pos (by omega), drop_take_one _ _ (by omega)]
          rw [getElem!_pos _ _ (by omega)]
        apply Page.copyText_same _ _ p.textsize.2
        · rw [tx i hi, tx _ (by omega)]; rfl
        · intro r hr'
          apply hmem
          exact List.mem_of_mem_drop (List.mem_of_mem_take (by simpa only [rowView, qt] using hr'))
        · intro r hr'
          apply hmem
          exact List.mem_of_mem_drop (List.mem_of_mem_take (by simpa only [rowView, qt] using hr'))
      rw [if_pos c]
      simp only [Nat.lt_irrefl, or_self, if_false]
      cases hn : q.names with
      | none =>
        have hni : (rowView q i 1).names = none := by simp [rowView, hn]
        simp only [hni]
        rw [ct _ rfl]
        exact ⟨_, _, rfl, rfl, rfl, rfl, rfl, by simp [rowView, hn]⟩
      | some nm =>
        have hni : (rowView q i 1).names = some (rowNames nm i) := by simp [rowView, hn]
        simp only [hni]
        rw [ct _ rfl]
        exact ⟨_, _, rfl, rfl, rfl, rfl, rfl, by simp [rowView, hn]⟩
  obtain ⟨V, b, hV, h1, h2, h3, h4, h5⟩ := key
  unfold copyRow
  rw [hV]
  simp only [Res.bind_ok]
  congr 1
  have f1 : (putRows q (kept keep i) V).vector = p.vector.map (comp keep (i + 1)) := by
    show (match V.vector with | some xs => _ | none => _) = _
    rw [h1]; simp only [rowView, qv]; exact v2
  have f3 : (putRows q (kept keep i) V).weights = p.weights.map (comp keep (i + 1)) := by
    show (match V.weights with | some xs => _ | none => _) = _
    rw [h3]; simp only [rowView, qw]; exact w2
  have f2 : (putRows q (kept keep i) V).matrix = p.matrix.map (fun m => { m with rows := comp keep (i + 1) m.rows }) := by
    show (match V.matrix with | some xs => _ | none => _) = _
    rw [h2]; simp only [rowView, qm]
    cases hmm : p.matrix with
    | none => simp
    | some m =>
      have hl := hr.mat m hmm
      unfold Mat.size1 at hl
      have hc := comp_length keep m.rows i (by omega)
      simp only [Option.map_some, Option.bind_some, cut]
      rw [if_neg (by omega)]
      simp only [Option.map_some, Option.some_or, Option.some.injEq]
      rw [comp_step keep m.rows i (by omega) hk, comp_drop keep m.rows i i (by omega) ho,
        drop_take_one _ _ (by omega)]
  have f4 : (putRows q (kept keep i) V).text = comp keep (i + 1) p.text := by
    show putAt q.text _ V.text = _
    rw [h4, qt]
    rcases hr.txt with h | h
    · simp only [rowView, qs, qt]
      rw [if_pos (by omega), comp_drop keep p.text i i (by omega) ho, drop_take_one _ _ (by omega),
        comp_step keep p.text i (by omega) hk]
    · have : p.text = [] := List.eq_nil_of_length_eq_zero (ht1.trans h)
      simp [rowView, qt, this, comp_nil, putAt]
  have f5 : (putRows q (kept keep i) V).names =
      p.names.map (fun n => { n with row := comp keep (i + 1) n.row }) := by
    show (match V.names with | some xs => _ | none => _) = _
    rw [h5, qn]
    cases hnn : p.names with
    | none => simp
    | some nm =>
      simp only [Option.map_some, Option.some.injEq]
      obtain ⟨t, ht⟩ := memcpyNames_row { nm with row := comp keep i nm.row } (kept keep i) i ho
      rw [ht]
      simp only [rowNames]
      congr 1
      rcases hr.nms nm hnn with h | h
      · have hc := comp_length keep nm.row i (by omega)
        rw [comp_drop keep nm.row i i (by omega) ho, drop_take_one nm.row i (by omega),
          drop_take_one _ _ (by omega : kept keep i < (comp keep i nm.row).length),
          comp_step keep nm.row i (by omega) hk]
        simp [show min 1 ((comp keep i nm.row).length - kept keep i) = 1 by omega]
      · simp [h, comp_nil, putAt]
  have ext : ∀ a b : Page α, a.vector = b.vector → a.matrix = b.matrix → a.weights = b.weights →
      a.text = b.text → a.names = b.names → a.textsize = b.textsize → a.error = b.error → a = b := by
    intro a b; cases a; cases b; simp_all
  exact ext _ _ f1 f2 f3 f4 f5 qs (by rw [← hq]; rfl)

theorem pageExt : ∀ {a b : Page α}, a.vector = b.vector → a.matrix = b.matrix → a.weights = b.weights →
    a.text = b.text → a.names = b.names → a.textsize = b.textsize → a.error = b.error → a = b := by
  intro a b; cases a; cases b; simp_all

theorem cut_comp (keep : Nat → Bool) (l : List β) (i : Nat) (h : i < l.length) :
    cut (comp keep i l) i 1 = cut l i 1 := by
  unfold cut
  rw [comp_length keep l i (by omega), comp_drop keep l i i (by omega) (kept_le _ _)]

/-- The row about to be examined still shows its original content. -/
theorem rowView_mid (keep : Nat → Bool) (p : Page α) (n i : Nat) (hp : p.WF) (hr : Rect p n) (hi : i < n) :
    rowView (mapRows (comp keep i) p) i 1 = { rowView p i 1 with } := by
  obtain ⟨hm, ⟨ht1, ht2⟩, hz⟩ := hp
  have ho := kept_le keep i
  apply pageExt
  · show (p.vector.map (comp keep i)).bind _ = p.vector.bind _
    cases h : p.vector with
    | none => rfl
    | some v => exact cut_comp keep v i (by rw [hr.vec v h]; exact hi)
  · show (p.matrix.map (fun m => { m with rows := comp keep i m.rows })).bind _ = p.matrix.bind _
    cases h : p.matrix with
    | none => rfl
    | some m =>
      have := hr.mat m h
      unfold Mat.size1 at this
      show (cut (comp keep i m.rows) i 1).map _ = (cut m.rows i 1).map _
      rw [cut_comp keep m.rows i (by omega)]
  · show (p.weights.map (comp keep i)).bind _ = p.weights.bind _
    cases h : p.weights with
    | none => rfl
    | some v => exact cut_comp keep v i (by rw [hr.wts v h]; exact hi)
  · show ((comp keep i p.text).drop i).take _ = (p.text.drop i).take _
    rcases hr.txt with h | h
    · rw [comp_drop keep p.text i i (by omega) ho]; rfl
    · rw [List.eq_nil_of_length_eq_zero (ht1.trans h), comp_nil]; simp
  · show (p.names.map (fun n => { n with row := comp keep i n.row })).map _ = p.names.map _
    cases h : p.names with
    | none => rfl
    | some nm =>
      simp only [Option.map_some, Option.some.injEq, rowNames]
      rcases hr.nms nm h with h | h
      · rw [comp_drop keep nm.row i i (by omega) ho, comp_length keep nm.row i (by omega)]
      · simp [h, comp_nil]
  · rfl
  · rfl

/-- Row `i` survives: neither marked in the array nor rejected by the function, which is shown
row `i` of the original data. -/
def keeps (drop : Option (List Bool)) (f : Option (Page α → Bool)) (p : Page α) (i : Nat) : Bool :=
  !((drop.bind (·[i]?)).getD false) && !((f.map (fun f => f (rowView p i 1))).getD false)

theorem mapRows_skip (keep : Nat → Bool) (p : Page α) (n i : Nat) (hp : p.WF) (hr : Rect p n)
    (h : ∀ {β : Type} (l : List β), l.length = n → comp keep (i + 1) l = comp keep i l) :
    mapRows (comp keep (i + 1)) p = mapRows (comp keep i) p := by
  obtain ⟨hm, ⟨ht1, ht2⟩, hz⟩ := hp
  apply pageExt
  · show p.vector.map _ = p.vector.map _
    cases hv : p.vector with
    | none => rfl
    | some v => simp [h v (hr.vec v hv)]
  · show p.matrix.map _ = p.matrix.map _
    cases hv : p.matrix with
    | none => rfl
    | some v => simp [h v.rows (hr.mat v hv)]
  · show p.weights.map _ = p.weights.map _
    cases hv : p.weights with
    | none => rfl
    | some v => simp [h v (hr.wts v hv)]
  · show comp keep _ p.text = comp keep _ p.text
    rcases hr.txt with ht | ht
    · exact h _ (by omega)
    · rw [List.eq_nil_of_length_eq_zero (ht1.trans ht), comp_nil, comp_nil]
  · show p.names.map _ = p.names.map _
    cases hv : p.names with
    | none => rfl
    | some v =>
      rcases hr.nms v hv with ht | ht
      · simp [h v.row ht]
      · simp [ht, comp_nil]
  · rfl
  · rfl

theorem shiftLoop_eq (drop : Option (List Bool)) (f : Option (Page α → Bool)) (p : Page α) (n : Nat)
    (hp : p.WF) (hr : Rect p n) (hd : ∀ d, drop = some d → n ≤ d.length) :
    ∀ (k i : Nat), i + k = n →
    shiftLoop drop f k i (kept (keeps drop f p) i) (mapRows (comp (keeps drop f p) i) p) =
      .ok (mapRows (comp (keeps drop f p) n) p, kept (keeps drop f p) n) := by
  intro k
  induction k with
  | zero => intro i hi; simp only [Nat.add_zero] at hi; subst hi; rfl
  | succ k ih =>
    intro i hik
    have hi : i < n := by omega
    have hdr : dropRow drop f (mapRows (comp (keeps drop f p) i) p) i = .ok (!(keeps drop f p i)) := by
      unfold dropRow
      have hda : dropAt drop i = .ok ((drop.bind (·[i]?)).getD false) := by
        cases drop with
        | none => rfl
        | some d =>
          have := hd d rfl
          simp [dropAt, rd_of_lt (show i < d.length by omega), List.getElem?_eq_getElem (show i < d.length by omega)]
      rw [hda, rowView_mid _ p n i hp hr hi]
      simp only [Res.bind_ok, keeps]
      cases (drop.bind (·[i]?)).getD false <;> cases f <;> simp
    simp only [shiftLoop, hdr, Res.bind_ok]
    by_cases hk : keeps drop f p i = true
    · simp only [hk, Bool.not_true, Bool.false_eq_true, if_false]
      have hks : kept (keeps drop f p) (i + 1) = kept (keeps drop f p) i + 1 := by rw [kept_succ]; simp [hk]
      by_cases hne : kept (keeps drop f p) i ≠ i
      · rw [if_pos hne, copyRow_eq _ p n i hp hr hi hk hne]
        simp only [Res.bind_ok]
        rw [← hks]
        exact ih (i + 1) (by omega)
      · rw [if_neg hne]
        simp only [Res.bind_ok]
        rw [← hks, ← mapRows_skip _ p n i hp hr (fun l hl => comp_same _ l i (by omega) hk (by simpa using hne))]
        exact ih (i + 1) (by omega)
    · have hk' : keeps drop f p i = false := by simpa using hk
      simp only [hk', Bool.not_false, if_true]
      have hks : kept (keeps drop f p) (i + 1) = kept (keeps drop f p) i := by rw [kept_succ]; simp [hk']
      rw [← hks, ← mapRows_skip _ p n i hp hr (fun l hl => comp_skip _ l i (by omega) hk')]
      exact ih (i + 1) (by omega)

end Apop.Rows
