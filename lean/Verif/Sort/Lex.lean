import Verif.Sort.Rearrange

/-! # The second pass: blocks of ties -/

namespace Apop.Sort
open Apop.Views Apop.Rows
variable {α β κ : Type}

/-! ### specification of the order -/

/-- The number of row `i` in a numeric column. -/
def numAt (p : Page α) (c : Col) (i : Nat) : Option α :=
  match c with
  | .vec => p.vector.bind (·[i]?)
  | .wts => p.weights.bind (·[i]?)
  | .mat j => p.matrix.bind (fun m => (m.rows[i]?).bind (·[j]?))
  | _ => none

/-- The string of row `i` in a text column, or its row name. -/
def txtAt (p : Page α) (c : Col) (i : Nat) : Option CStr :=
  match c with
  | .text j => (p.text[i]?).bind (·[j]?)
  | .name => p.names.bind (fun n => n.row[i]?)
  | _ => none

/-- `strcasecmp(a, b) <= 0` in the C locale. -/
def strLe (a b : CStr) : Bool := decide (a.map lower ≤ b.map lower)

/-- Row `i` does not come after row `j` by column `c`. -/
def CellLe (le : α → α → Bool) (p : Page α) (c : Col) (i j : Nat) : Prop :=
  (∀ a b, numAt p c i = some a → numAt p c j = some b → le a b = true) ∧
  (∀ a b, txtAt p c i = some a → txtAt p c j = some b → strLe a b = true)

/-- Lexicographic order of rows by a list of columns: not after by the first, and if tied there, not
after by the rest. -/
def LexLe (le : α → α → Bool) (p : Page α) : List Col → Nat → Nat → Prop
  | [], _, _ => True
  | c :: cs, i, j => CellLe le p c i j ∧ (CellLe le p c j i → LexLe le p cs i j)

/-- The same with the first column descending. -/
def LexLeD (le : α → α → Bool) (p : Page α) (desc : Bool) : List Col → Nat → Nat → Prop
  | [], _, _ => True
  | c :: cs, i, j =>
    if desc then CellLe le p c j i ∧ (CellLe le p c i j → LexLe le p cs i j)
    else CellLe le p c i j ∧ (CellLe le p c j i → LexLe le p cs i j)

/-- The column exists and has `n` entries. -/
def HasCol (p : Page α) (n : Nat) : Col → Prop
  | .vec => p.vector.isSome
  | .wts => p.weights.isSome
  | .mat j => ∃ m, p.matrix = some m ∧ j < m.cols
  | .text j => p.textsize.1 = n ∧ j < p.textsize.2
  | .name => ∃ nm, p.names = some nm ∧ nm.row.length = n

/-- What is assumed of the library sorts: they return a permutation that sorts. -/
structure Sorters.Ok (S : Sorters α) (le : α → α → Bool) : Prop where
  numsPerm : ∀ ks, (S.nums ks).Perm (List.range ks.length)
  numsSorted : ∀ ks, (S.nums ks).Pairwise (fun i j => ∀ a b, ks[i]? = some a → ks[j]? = some b → le a b = true)
  strsPerm : ∀ ks, (S.strs ks).Perm (List.range ks.length)
  strsSorted : ∀ ks, (S.strs ks).Pairwise (fun i j => ∀ a b, ks[i]? = some a → ks[j]? = some b → strLe a b = true)

/-- `le` is a total preorder (`<=` on doubles without NaN). -/
structure Preord (le : α → α → Bool) : Prop where
  total : ∀ a b, le a b = true ∨ le b a = true
  trans : ∀ a b c, le a b = true → le b c = true → le a c = true

theorem Preord.refl {le : α → α → Bool} (h : Preord le) (a : α) : le a a = true := (h.total a a).elim id id

theorem strLe_refl (a : CStr) : strLe a a = true := by simp [strLe]
theorem strLe_trans {a b c : CStr} (h : strLe a b = true) (h' : strLe b c = true) : strLe a c = true := by
  simp only [strLe, decide_eq_true_eq] at *
  exact List.le_trans h h'
theorem strLe_antisymm {a b : CStr} (h : strLe a b = true) (h' : strLe b a = true) : caseEq a b = true := by
  simp only [strLe, decide_eq_true_eq] at *
  exact caseEq_iff.2 (List.le_antisymm h h')
theorem strLe_total (a b : CStr) : strLe a b = true ∨ strLe b a = true := by
  simp only [strLe, decide_eq_true_eq]
  exact List.le_total _ _
theorem strLe_of_caseEq {a b : CStr} (h : caseEq a b = true) : strLe a b = true := by
  simp only [strLe, decide_eq_true_eq, caseEq_iff.1 h]
  exact List.le_refl _

/-! ### picks -/

theorem pick_append (A B : List Nat) (l : List β) : pick (A ++ B) l = pick A l ++ pick B l := by
  simp [pick, List.filterMap_append]

theorem pick_length (π : List Nat) (l : List β) (h : Below π l.length) : (pick π l).length = π.length :=
  (pick_spec π l h).1

theorem below_pick {σ π : List Nat} {n : Nat} (h : Below π n) : Below (pick σ π) n := by
  intro x hx
  obtain ⟨k, -, hk⟩ := List.mem_filterMap.1 hx
  exact h x (List.mem_of_getElem? hk)

theorem pick_pick (σ π : List Nat) (l : List β) (h : Below π l.length) (hs : Below σ π.length) :
    pick σ (pick π l) = pick (pick σ π) l := by
  obtain ⟨a1, a2⟩ := pick_spec π l h
  obtain ⟨b1, b2⟩ := pick_spec σ π hs
  obtain ⟨c1, c2⟩ := pick_spec σ (pick π l) (by rw [a1]; exact hs)
  obtain ⟨d1, d2⟩ := pick_spec (pick σ π) l (below_pick h)
  apply List.ext_getElem?
  intro k
  rw [c2, d2, b2]
  cases σ[k]? with
  | none => rfl
  | some x => simp [a2]

theorem pick_perm (σ π : List Nat) (h : σ.Perm (List.range π.length)) : (pick σ π).Perm π := by
  have := List.Perm.filterMap (π[·]?) h
  have e : (List.range π.length).filterMap (π[·]?) = π := pick_range π
  rw [e] at this
  exact this

theorem below_append {A B : List Nat} {n : Nat} : Below (A ++ B) n ↔ Below A n ∧ Below B n := by
  simp only [Below, List.mem_append]
  exact ⟨fun h => ⟨fun x hx => h x (Or.inl hx), fun x hx => h x (Or.inr hx)⟩, fun h x hx => hx.elim (h.1 x) (h.2 x)⟩

theorem below_of_perm {π : List Nat} {n : Nat} (h : π.Perm (List.range n)) : Below π n := by
  intro x hx; simpa using h.mem_iff.1 hx

/-! ### columns as lists -/

theorem fm_get {γ : Type} (f : β → Option γ) : ∀ (l : List β), (∀ r ∈ l, (f r).isSome) →
    ∀ i : Nat, (l.filterMap f)[i]? = (l[i]?).bind f
  | [], _, i => by simp
  | r :: l, h, i => by
    obtain ⟨x, hx⟩ := Option.isSome_iff_exists.1 (h r (by simp))
    rw [List.filterMap_cons_some hx]
    cases i with
    | zero => simp [hx]
    | succ i => simpa using fm_get f l (fun s hs => h s (by simp [hs])) i

theorem fm_len {γ : Type} (f : β → Option γ) : ∀ (l : List β), (∀ r ∈ l, (f r).isSome) →
    (l.filterMap f).length = l.length
  | [], _ => by simp
  | r :: l, h => by
    obtain ⟨x, hx⟩ := Option.isSome_iff_exists.1 (h r (by simp))
    rw [List.filterMap_cons_some hx]
    simp [fm_len f l (fun s hs => h s (by simp [hs]))]

theorem getColRows_eq (j : Nat) : ∀ (rows : List (List α)), (∀ r ∈ rows, j < r.length) →
    Stack.getColRows j rows = .ok (rows.filterMap (·[j]?))
  | [], _ => rfl
  | r :: rows, h => by
    have hj : j < r.length := h r (by simp)
    simp only [Stack.getColRows, rd_of_lt hj, Res.bind_ok, getColRows_eq j rows (fun s hs => h s (by simp [hs]))]
    rw [List.filterMap_cons_some (b := r[j]) (by simp [hj])]

theorem strCol_eq (j : Nat) : ∀ (rows : List (List CStr)), (∀ r ∈ rows, j < r.length) →
    strCol j rows = .ok (rows.filterMap (·[j]?))
  | [], _ => rfl
  | r :: rows, h => by
    have hj : j < r.length := h r (by simp)
    simp only [strCol, rd_of_lt hj, Res.bind_ok, strCol_eq j rows (fun s hs => h s (by simp [hs]))]
    rw [List.filterMap_cons_some (b := r[j]) (by simp [hj])]

/-- The numeric column read by the program is the column of the specification. -/
theorem numCol_ok {p : Page α} {n : Nat} (hp : p.WF) (hr : Rect p n) (c : Col) (hc : HasCol p n c)
    (ht : c.isText = false) : ∃ ks, numCol p c = .ok ks ∧ ks.length = n ∧ ∀ i : Nat, ks[i]? = numAt p c i := by
  cases c with
  | vec =>
    obtain ⟨v, hv⟩ := Option.isSome_iff_exists.1 hc
    exact ⟨v, by simp [numCol, hv], hr.vec v hv, by simp [numAt, hv]⟩
  | wts =>
    obtain ⟨v, hv⟩ := Option.isSome_iff_exists.1 hc
    exact ⟨v, by simp [numCol, hv], hr.wts v hv, by simp [numAt, hv]⟩
  | mat j =>
    obtain ⟨m, hm, hj⟩ := hc
    have hw : ∀ r ∈ m.rows, j < r.length := fun r hrr => by rw [hp.1 m hm r hrr]; exact hj
    have hs : ∀ r ∈ m.rows, (r[j]?).isSome := fun r hrr => by simp [hw r hrr]
    have hg := fm_get (fun r : List α => r[j]?) m.rows hs
    refine ⟨m.rows.filterMap (·[j]?), by simp only [numCol, hm]; exact getColRows_eq j m.rows hw, ?_, ?_⟩
    · rw [← hr.mat m hm]
      unfold Mat.size1
      exact fm_len _ m.rows hs
    · intro i; rw [hg i]; simp [numAt, hm]
  | text j => cases ht
  | name => cases ht

/-- Likewise for text columns and row names. -/
theorem txtCol_ok {p : Page α} {n : Nat} (hp : p.WF) (c : Col) (hc : HasCol p n c)
    (ht : c.isText = true) : ∃ ks, txtCol p c = .ok ks ∧ ks.length = n ∧ ∀ i : Nat, ks[i]? = txtAt p c i := by
  cases c with
  | vec => cases ht
  | wts => cases ht
  | mat j => cases ht
  | text j =>
    obtain ⟨h1, hj⟩ := hc
    obtain ⟨-, ⟨ht1, ht2⟩, -⟩ := hp
    have hw : ∀ r ∈ p.text, j < r.length := fun r hrr => by rw [ht2 r hrr]; exact hj
    have hs : ∀ r ∈ p.text, (r[j]?).isSome := fun r hrr => by simp [hw r hrr]
    have hg := fm_get (fun r : List CStr => r[j]?) p.text hs
    refine ⟨p.text.filterMap (·[j]?), by simp only [txtCol]; exact strCol_eq j p.text hw, ?_, ?_⟩
    · rw [← h1, ← ht1]
      exact fm_len _ p.text hs
    · intro i; rw [hg i]; simp [txtAt]
  | name =>
    obtain ⟨nm, h1, h2⟩ := hc
    exact ⟨nm.row, by simp [txtCol, h1], h2, by simp [txtAt, h1]⟩

/-! ### gathered rows -/

/-- `v` holds the rows `B` of `p`; no row names are involved. -/
structure Shows (v p : Page α) (B : List Nat) : Prop where
  vec : v.vector = p.vector.map (pick B)
  mat : v.matrix = p.matrix.map (fun m => { m with rows := pick B m.rows })
  wts : v.weights = p.weights.map (pick B)
  txt : v.text = pick B p.text
  tsz : v.textsize = (if p.textsize.1 = 0 then 0 else B.length, p.textsize.2)
  nms : ∀ nm, v.names = some nm → nm.row = []

/-- No row names. -/
def NoRowNames (p : Page α) : Prop := ∀ nm, p.names = some nm → nm.row = []

theorem shows_gather (p : Page α) (B : List Nat) (h : NoRowNames p) : Shows (gather B p) p B := by
  refine ⟨rfl, rfl, rfl, rfl, rfl, ?_⟩
  intro nm hn
  simp only [gather, Option.map_eq_some_iff] at hn
  obtain ⟨n0, h0, rfl⟩ := hn
  simp [h n0 h0, pick_nil]

theorem shows_get {β : Type} {B : List Nat} {l : List β} {n : Nat} (hb : Below B n) (hl : l.length = n) (i : Nat) :
    (pick B l)[i]? = (B[i]?).bind (l[·]?) := (pick_spec B l (by rw [hl]; exact hb)).2 i

theorem Shows.numAt {v p : Page α} {B : List Nat} {n : Nat} (h : Shows v p B) (hr : Rect p n) (hb : Below B n)
    (c : Col) (i x : Nat) (hi : B[i]? = some x) : numAt v c i = numAt p c x := by
  cases c with
  | vec =>
    simp only [Sort.numAt, h.vec]
    cases hv : p.vector with
    | none => rfl
    | some l => simp [shows_get hb (hr.vec l hv), hi]
  | wts =>
    simp only [Sort.numAt, h.wts]
    cases hv : p.weights with
    | none => rfl
    | some l => simp [shows_get hb (hr.wts l hv), hi]
  | mat j =>
    simp only [Sort.numAt, h.mat]
    cases hv : p.matrix with
    | none => rfl
    | some l => simp [shows_get hb (hr.mat l hv), hi]
  | text j => rfl
  | name => rfl

theorem text_pick {p : Page α} {B : List Nat} {n : Nat} (hp : p.WF) (hr : Rect p n) (hb : Below B n) (i x : Nat)
    (hi : B[i]? = some x) : (pick B p.text)[i]? = p.text[x]? := by
  rcases hr.txt with e | e
  · rw [shows_get hb (hp.2.1.1.trans e), hi]; rfl
  · rw [List.eq_nil_of_length_eq_zero (hp.2.1.1.trans e), pick_nil]; rfl

theorem Shows.txtAt {v p : Page α} {B : List Nat} {n : Nat} (h : Shows v p B) (hp : p.WF) (hr : Rect p n) (hb : Below B n)
    (hn : NoRowNames p) (c : Col) (i x : Nat) (hi : B[i]? = some x) : txtAt v c i = txtAt p c x := by
  cases c with
  | text j => simp only [Sort.txtAt, h.txt, text_pick hp hr hb i x hi]
  | name =>
    have none_of : ∀ (q : Page α) (k : Nat), (∀ nm, q.names = some nm → nm.row = []) → Sort.txtAt q .name k = none := by
      intro q k hq
      simp only [Sort.txtAt]
      cases hqn : q.names with
      | none => rfl
      | some nm => simp [hq nm hqn]
    rw [none_of v i h.nms, none_of p x hn]
  | vec => rfl
  | wts => rfl
  | mat j => rfl

theorem Shows.cellLe {v p : Page α} {B : List Nat} {n : Nat} (le : α → α → Bool) (h : Shows v p B) (hp : p.WF) (hr : Rect p n)
    (hb : Below B n) (hn : NoRowNames p) (c : Col) (i j x y : Nat) (hi : B[i]? = some x) (hj : B[j]? = some y) :
    CellLe le v c i j ↔ CellLe le p c x y := by
  unfold CellLe
  rw [h.numAt hr hb c i x hi, h.numAt hr hb c j y hj, h.txtAt hp hr hb hn c i x hi, h.txtAt hp hr hb hn c j y hj]

theorem Shows.lexLe {v p : Page α} {B : List Nat} {n : Nat} (le : α → α → Bool) (h : Shows v p B) (hp : p.WF) (hr : Rect p n)
    (hb : Below B n) (hn : NoRowNames p) : ∀ (cs : List Col) (i j x y : Nat), B[i]? = some x → B[j]? = some y →
    (LexLe le v cs i j ↔ LexLe le p cs x y)
  | [], _, _, _, _, _, _ => Iff.rfl
  | c :: cs, i, j, x, y, hi, hj => by
    simp only [LexLe, h.cellLe le hp hr hb hn c i j x y hi hj, h.cellLe le hp hr hb hn c j i y x hj hi,
      h.lexLe le hp hr hb hn cs i j x y hi hj]

theorem Shows.hasCol {v p : Page α} {B : List Nat} {n : Nat} (h : Shows v p B)
    (hn : NoRowNames p) (hn0 : 0 < n) (c : Col) (hc : HasCol p n c) : HasCol v B.length c := by
  cases c with
  | vec => simp only [HasCol, h.vec, Option.isSome_map]; exact hc
  | wts => simp only [HasCol, h.wts, Option.isSome_map]; exact hc
  | mat j =>
    obtain ⟨m, hm, hj⟩ := hc
    exact ⟨{ m with rows := pick B m.rows }, by rw [h.mat, hm]; rfl, hj⟩
  | text j =>
    obtain ⟨h1, h2⟩ := hc
    refine ⟨?_, ?_⟩
    · rw [h.tsz]; simp only; rw [if_neg (by omega)]
    · rw [h.tsz]; exact h2
  | name =>
    obtain ⟨nm, h1, h2⟩ := hc
    rw [hn nm h1] at h2
    simp at h2; omega

theorem Shows.wfRect {v p : Page α} {B : List Nat} {n : Nat} (h : Shows v p B) (hp : p.WF) (hr : Rect p n) (hb : Below B n)
    (hl : B.length ≠ 0) : v.WF ∧ Rect v B.length := by
  obtain ⟨w, r⟩ := rect_gather hp hr B hb hl
  have e1 : v.vector = (gather B p).vector := h.vec
  have e2 : v.matrix = (gather B p).matrix := h.mat
  have e3 : v.weights = (gather B p).weights := h.wts
  have e4 : v.text = (gather B p).text := h.txt
  have e5 : v.textsize = (gather B p).textsize := h.tsz
  obtain ⟨w1, w2, w3⟩ := w
  refine ⟨⟨by rw [e2]; exact w1, ⟨by rw [e4, e5]; exact w2.1, by rw [e4, e5]; exact w2.2⟩, by rw [e5]; exact w3⟩, ?_⟩
  exact ⟨by rw [e1]; exact r.vec, by rw [e2]; exact r.mat, by rw [e3]; exact r.wts, by rw [e5]; exact r.txt,
    fun nm hnm => Or.inr (h.nms nm hnm)⟩

theorem cut_mid {β : Type} (A B C : List Nat) (l : List β) (n : Nat) (hl : l.length = n)
    (h : Below (A ++ (B ++ C)) n) : cut (pick (A ++ (B ++ C)) l) A.length B.length = some (pick B l) := by
  subst hl
  obtain ⟨ha, h'⟩ := below_append.1 h
  obtain ⟨hb, hc⟩ := below_append.1 h'
  unfold cut
  rw [if_neg (by rw [pick_length _ _ h]; simp only [List.length_append]; omega), pick_append, pick_append,
    List.drop_left' (pick_length A l ha), List.take_left' (pick_length B l hb)]

/-- The view of a block shows the rows of that block. -/
theorem shows_view {p : Page α} {n : Nat} (hp : p.WF) (hr : Rect p n) (hn : NoRowNames p) (A B C : List Nat)
    (h : Below (A ++ (B ++ C)) n) (hB : B.length ≠ 0) :
    Shows (rowView (gather (A ++ (B ++ C)) p) A.length B.length) p B := by
  obtain ⟨ha, h'⟩ := below_append.1 h
  obtain ⟨hb, hc⟩ := below_append.1 h'
  have htx : p.textsize.1 = 0 → p.text = [] := fun e => List.eq_nil_of_length_eq_zero (hp.2.1.1.trans e)
  have hrn : ∀ nm, p.names = some nm → nm.row = [] := hn
  refine ⟨?_, ?_, ?_, ?_, ?_, ?_⟩
  · simp only [rowView, gather]
    cases hv : p.vector with
    | none => rfl
    | some l => simp [cut_mid A B C l n (hr.vec l hv) h]
  · simp only [rowView, gather]
    cases hv : p.matrix with
    | none => rfl
    | some l => simp [cut_mid A B C l.rows n (hr.mat l hv) h]
  · simp only [rowView, gather]
    cases hv : p.weights with
    | none => rfl
    | some l => simp [cut_mid A B C l n (hr.wts l hv) h]
  · simp only [rowView]
    by_cases e : p.textsize.1 = 0
    · rw [show (gather (A ++ (B ++ C)) p).text = [] by simp [gather, htx e, pick_nil], htx e, pick_nil]; simp
    · have hl : p.text.length = n := hp.2.1.1.trans (hr.txt.resolve_right e)
      have ha' : Below A p.text.length := hl ▸ ha
      have hb' : Below B p.text.length := hl ▸ hb
      rw [if_pos (by simp only [gather, if_neg e, List.length_append]; omega)]
      simp only [gather]
      rw [pick_append, pick_append, List.drop_left' (pick_length A _ ha'), List.take_left' (pick_length B _ hb')]
  · simp only [rowView]
    by_cases e : p.textsize.1 = 0
    · rw [if_neg (by simp only [gather, if_pos e]; omega), if_pos e]; rfl
    · rw [if_pos (by simp only [gather, if_neg e, List.length_append]; omega), if_neg e]; rfl
  · intro nm hnm
    simp only [rowView, gather, Option.map_map, Option.map_eq_some_iff, Function.comp] at hnm
    obtain ⟨n0, h0, rfl⟩ := hnm
    simp [rowNames, hrn n0 h0, pick_nil]

theorem putAt_mid {β : Type} (A B B' C : List Nat) (l : List β) (hA : Below A l.length) (hB : Below B l.length)
    (hB' : Below B' l.length) (hl : B'.length = B.length) :
    putAt (pick (A ++ (B ++ C)) l) A.length (pick B' l) = pick (A ++ (B' ++ C)) l := by
  unfold putAt
  rw [pick_append, pick_append, pick_append, pick_append, List.take_left' (pick_length A l hA),
    pick_length B' l hB', hl, ← List.append_assoc (pick A l) (pick B l), List.drop_left' (by
      rw [List.length_append, pick_length A l hA, pick_length B l hB]), List.append_assoc]

/-- Rearranging the view rearranges the block in the parent. -/
theorem put_view {p : Page α} {n : Nat} (hp : p.WF) (hr : Rect p n) (hn : NoRowNames p) (A B C σ : List Nat)
    (h : Below (A ++ (B ++ C)) n) (hB : B.length ≠ 0) (hσ : σ.Perm (List.range B.length)) :
    putRows (gather (A ++ (B ++ C)) p) A.length (gather σ (rowView (gather (A ++ (B ++ C)) p) A.length B.length)) =
      gather (A ++ (pick σ B ++ C)) p := by
  have hv := shows_view hp hr hn A B C h hB
  obtain ⟨ha, h'⟩ := below_append.1 h
  obtain ⟨hb, hc⟩ := below_append.1 h'
  have hσb := below_of_perm hσ
  have hlen : (pick σ B).length = B.length := (pick_perm σ B hσ).length_eq
  have one : ∀ {β : Type} (l : List β), l.length = n →
      putAt (pick (A ++ (B ++ C)) l) A.length (pick σ (pick B l)) = pick (A ++ (pick σ B ++ C)) l := by
    intro β l hl
    subst hl
    rw [pick_pick σ B l hb hσb]
    exact putAt_mid A B _ C l ha hb (below_pick hb) hlen
  have hvn : (rowView (gather (A ++ (B ++ C)) p) A.length B.length).names =
      p.names.map (fun n => { n with row := [], rowhash := [] }) := by
    simp only [rowView, gather]
    cases e : p.names with
    | none => rfl
    | some nm => simp [rowNames, hn nm e, pick_nil]
  generalize rowView (gather (A ++ (B ++ C)) p) A.length B.length = V at hv hvn
  apply pageExt
  · simp only [putRows]
    simp only [gather, hv.vec]
    cases e : p.vector with
    | none => rfl
    | some l => simp [one l (hr.vec l e)]
  · simp only [putRows]
    simp only [gather, hv.mat]
    cases e : p.matrix with
    | none => rfl
    | some l => simp [one l.rows (hr.mat l e)]
  · simp only [putRows]
    simp only [gather, hv.wts]
    cases e : p.weights with
    | none => rfl
    | some l => simp [one l (hr.wts l e)]
  · simp only [putRows]
    simp only [gather, hv.txt]
    rcases hr.txt with e | e
    · exact one _ (hp.2.1.1.trans e)
    · rw [List.eq_nil_of_length_eq_zero (hp.2.1.1.trans e)]
      simp [pick_nil, putAt]
  · simp only [putRows, gather, hvn]
    cases e : p.names with
    | none => rfl
    | some nm =>
      have := hn nm e
      obtain ⟨a, b, c, d, e', f, g, i⟩ := nm
      simp only at this; subst this
      simp [rowNames, pick_nil, putAt]
  · simp only [putRows, gather]
    simp only [List.length_append, hlen]
  · rfl

/-! ### the block loop -/

/-- What the recursive call does with the view of a block of at least two rows. -/
def SubOk (p : Page α) (n : Nat) (Rest : Nat → Nat → Prop) (sub : Page α → Res (Page α)) : Prop :=
  ∀ (B : List Nat) (v : Page α), Below B n → 2 ≤ B.length → Shows v p B →
    ∃ σ, σ.Perm (List.range B.length) ∧ sub v = .ok (gather σ v) ∧ (pick σ B).Pairwise Rest

theorem sub_block {p : Page α} {n : Nat} (hp : p.WF) (hr : Rect p n) (hn : NoRowNames p) {Rest : Nat → Nat → Prop}
    {sub : Page α → Res (Page α)} (hsub : SubOk p n Rest sub) (A B C : List Nat) (h : Below (A ++ (B ++ C)) n)
    (h2 : 2 ≤ B.length) :
    ∃ B', B'.Perm B ∧ B'.Pairwise Rest ∧
      (do let v ← sub (rowView (gather (A ++ (B ++ C)) p) A.length B.length)
          .ok (putRows (gather (A ++ (B ++ C)) p) A.length v)) = Res.ok (gather (A ++ (B' ++ C)) p) := by
  have hb := (below_append.1 (below_append.1 h).2).1
  obtain ⟨σ, s1, s2, s3⟩ := hsub B _ hb h2 (shows_view hp hr hn A B C h (by omega))
  refine ⟨pick σ B, pick_perm σ B s1, s3, ?_⟩
  rw [s2, Res.bind_ok, put_view hp hr hn A B C σ h (by omega) s1]

theorem blocks_ok {p : Page α} {n : Nat} (hp : p.WF) (hr : Rect p n) (hn : NoRowNames p)
    (key : Page α → Res (List κ)) (ks : List κ) (hkl : ks.length = n)
    (hkey : ∀ π, Below π n → π.length ≠ 0 → key (gather π p) = .ok (pick π ks))
    (R : Nat → Nat → Prop) (rrefl : ∀ x, x < n → R x x) (rtrans : ∀ x y z, x < n → y < n → z < n → R x y → R y z → R x z)
    (ne1 ne2 : κ → κ → Bool)
    (hne : ∀ x y a b, ks[x]? = some a → ks[y]? = some b → R x y →
      (ne1 b a = true ↔ ¬ R y x) ∧ (ne2 a b = true ↔ ¬ R y x))
    (Rest : Nat → Nat → Prop) (sub : Page α → Res (Page α)) (hsub : SubOk p n Rest sub) :
    ∀ (C A B : List Nat) (x : Nat) (last : κ), Below (A ++ ((B ++ [x]) ++ C)) n → ks[x]? = some last →
      (A ++ ((B ++ [x]) ++ C)).length = n →
      (A ++ ((B ++ [x]) ++ C)).Pairwise R →
      A.Pairwise (fun i j => R j i → Rest i j) →
      (∀ a ∈ A, ∀ y ∈ (B ++ [x]) ++ C, ¬ R y a) →
      (∀ y ∈ B, ∀ z ∈ B ++ [x], R z y) →
      ∃ π, blocks key ne1 ne2 sub n (C.length + 1) (A.length + B.length + 1) A.length last (gather (A ++ ((B ++ [x]) ++ C)) p) =
          .ok (gather π p) ∧ π.Perm (A ++ ((B ++ [x]) ++ C)) ∧ π.Pairwise R ∧ π.Pairwise (fun i j => R j i → Rest i j) := by
  -- closing a block
  have close : ∀ (A B C : List Nat) (x : Nat), Below (A ++ ((B ++ [x]) ++ C)) n → (A ++ ((B ++ [x]) ++ C)).Pairwise R →
      A.Pairwise (fun i j => R j i → Rest i j) → (∀ a ∈ A, ∀ y ∈ (B ++ [x]) ++ C, ¬ R y a) →
      (∀ y ∈ B, ∀ z ∈ B ++ [x], R z y) → 
      ∃ B', B'.Perm (B ++ [x]) ∧ (A ++ B').Pairwise (fun i j => R j i → Rest i j) ∧ (A ++ (B' ++ C)).Pairwise R ∧
      (if B ≠ [] then (do let v ← sub (rowView (gather (A ++ ((B ++ [x]) ++ C)) p) A.length (B ++ [x]).length)
                          .ok (putRows (gather (A ++ ((B ++ [x]) ++ C)) p) A.length v))
        else .ok (gather (A ++ ((B ++ [x]) ++ C)) p)) = Res.ok (gather (A ++ (B' ++ C)) p) := by
    intro A B C x hb hR hA hAB hB
    have hall : ∀ y ∈ B ++ [x], ∀ z ∈ B ++ [x], R z y := by
      intro y hy z hz
      have hR' := (List.pairwise_append.1 (List.pairwise_append.1 hR).2.1).1
      rcases List.mem_append.1 hy with h | h
      · exact hB y h z hz
      · rcases List.mem_append.1 hz with h' | h'
        · exact (List.pairwise_append.1 hR').2.2 z h' y h
        · simp only [List.mem_singleton] at h h'
          subst h; subst h'
          exact rrefl z (hb z (by simp))
    by_cases hBe : B = []
    · subst hBe
      refine ⟨[x], by simp, ?_, by simpa using hR, by simp⟩
      rw [List.pairwise_append]
      refine ⟨hA, by simp, ?_⟩
      intro a ha y hy hyr
      exact absurd hyr (hAB a ha y (by simp at hy; simp [hy]))
    · have h2 : 2 ≤ (B ++ [x]).length := by
        have := List.length_pos_iff.2 hBe; simp; omega
      obtain ⟨B', b1, b2, b3⟩ := sub_block hp hr hn hsub A (B ++ [x]) C hb h2
      refine ⟨B', b1, ?_, ?_, by rw [if_pos hBe]; exact b3⟩
      · rw [List.pairwise_append]
        refine ⟨hA, List.Pairwise.imp (S := fun i j => R j i → Rest i j) (fun {a b} h _ => h) b2, ?_⟩
        intro a ha y hy hyr
        exact absurd hyr (hAB a ha y (List.mem_append_left _ (b1.mem_iff.1 hy)))
      · obtain ⟨r1, r2, r3⟩ := List.pairwise_append.1 hR
        obtain ⟨r4, r5, r6⟩ := List.pairwise_append.1 r2
        rw [List.pairwise_append, List.pairwise_append]
        refine ⟨r1, ⟨?_, r5, fun y hy z hz => r6 y (b1.mem_iff.1 hy) z hz⟩, ?_⟩
        · rw [List.pairwise_iff_forall_sublist]
          intro y z hyz
          have m1 : y ∈ B' := hyz.subset (by simp)
          have m2 : z ∈ B' := hyz.subset (by simp)
          exact hall z (b1.mem_iff.1 m2) y (b1.mem_iff.1 m1)
        · intro a ha y hy
          apply r3 a ha y
          rcases List.mem_append.1 hy with h | h
          · exact List.mem_append_left _ (b1.mem_iff.1 h)
          · exact List.mem_append_right _ h
  intro C
  induction C with
  | nil =>
    intro A B x last hb hx hlen hR hA hAB hB
    obtain ⟨B', b1, b2, b3, b4⟩ := close A B [] x hb hR hA hAB hB
    have hi : A.length + B.length + 1 = n := by rw [← hlen]; simp; omega
    refine ⟨A ++ (B' ++ []), ?_, ?_, b3, by simpa using b2⟩
    · simp only [blocks, List.length_nil, if_pos hi]
      rw [← b4]
      by_cases hBe : B = []
      · subst hBe
        simp
      · rw [if_pos hBe, if_pos (by have := List.length_pos_iff.2 hBe; omega)]
        simp only [List.length_append, List.length_singleton]
        rw [show A.length + B.length + 1 - A.length = B.length + 1 by omega]
    · exact List.Perm.append_left A (List.Perm.append_right [] b1)
  | cons c C ih =>
    intro A B x last hb hx hlen hR hA hAB hB
    have hi : A.length + B.length + 1 ≠ n := by
      rw [← hlen]; simp only [List.length_append, List.length_cons, List.length_nil]; omega
    have hxn : x < n := hb x (by simp)
    have hcn : c < n := hb c (by simp)
    have hcl : c < ks.length := by omega
    have hc : ks[c]? = some ks[c] := List.getElem?_eq_getElem hcl
    have hxc : R x c := by
      have := (List.pairwise_append.1 (List.pairwise_append.1 hR).2.1).2.2
      exact this x (by simp) c (by simp)
    obtain ⟨n1, n2⟩ := hne x c last ks[c] hx hc hxc
    have hget : (A ++ ((B ++ [x]) ++ c :: C))[A.length + B.length + 1]? = some c := by
      rw [List.getElem?_append_right (by omega), List.getElem?_append_right (by simp; omega)]
      have : A.length + B.length + 1 - A.length - (B ++ [x]).length = 0 := by simp; omega
      rw [this]; rfl
    have hrd : rd (pick (A ++ ((B ++ [x]) ++ c :: C)) ks) (A.length + B.length + 1) = .ok ks[c] := by
      rw [rd_eq_ok, (pick_spec _ ks (by rw [hkl]; exact hb)).2, hget]
      exact hc
    rw [blocks, if_neg hi, hkey _ hb (by omega), Res.bind_ok, hrd, Res.bind_ok]
    by_cases htie : R c x
    · -- the block goes on
      have e1 : ne1 ks[c] last = false := by
        cases h : ne1 ks[c] last with
        | false => rfl
        | true => exact absurd htie (n1.1 h)
      have e2 : ne2 last ks[c] = false := by
        cases h : ne2 last ks[c] with
        | false => rfl
        | true => exact absurd htie (n2.1 h)
      have key1 := ih A (B ++ [x]) c ks[c] (by simpa using hb) hc (by simpa using hlen) (by simpa using hR) hA
        (by simpa using hAB) (by
          have old : ∀ y ∈ B ++ [x], ∀ z ∈ B ++ [x], R z y := by
            intro y hy z hz
            have hR' := (List.pairwise_append.1 (List.pairwise_append.1 hR).2.1).1
            rcases List.mem_append.1 hy with h | h
            · exact hB y h z hz
            · rcases List.mem_append.1 hz with h' | h'
              · exact (List.pairwise_append.1 hR').2.2 z h' y h
              · simp only [List.mem_singleton] at h h'
                subst h; subst h'
                exact rrefl z hxn
          intro y hy z hz
          rcases List.mem_append.1 hz with h | h
          · exact old y hy z h
          · simp only [List.mem_singleton] at h; subst h
            have hyn : y < n := hb y (List.mem_append_right _ (List.mem_append_left _ hy))
            exact rtrans z x y hcn hxn hyn htie (old y hy x (by simp)))
      obtain ⟨π, p1, p2, p3⟩ := key1
      refine ⟨π, ?_, by simpa using p2, p3⟩
      simp only [e1, e2, Bool.false_eq_true, false_and, if_false, Res.bind_ok]
      rw [← p1]
      simp [Nat.add_assoc]
    · -- a new block
      have e1 : ne1 ks[c] last = true := n1.2 htie
      have e2 : ne2 last ks[c] = true := n2.2 htie
      obtain ⟨B', b1, b2, b3, b4⟩ := close A B (c :: C) x hb hR hA hAB hB
      have hbl : B'.length = B.length + 1 := by rw [b1.length_eq]; simp
      have hperm : (A ++ (B' ++ c :: C)).Perm (A ++ ((B ++ [x]) ++ c :: C)) :=
        List.Perm.append_left A (List.Perm.append_right _ b1)
      have key1 := ih (A ++ B') [] c ks[c]
        (by intro y hy; exact hb y (hperm.mem_iff.1 (by simpa using hy))) hc
        (by rw [← hlen, ← hperm.length_eq]; simp) (by simpa using b3) b2
        (by
          intro a ha y hy
          have hy' : y ∈ c :: C := by simpa using hy
          have hyn : y < n := hb y (List.mem_append_right _ (List.mem_append_right _ hy'))
          rcases List.mem_append.1 ha with h | h
          · exact hAB a h y (List.mem_append_right _ hy')
          · intro hya
            have haB : a ∈ B ++ [x] := b1.mem_iff.1 h
            have han : a < n := hb a (List.mem_append_right _ (List.mem_append_left _ haB))
            have hcy : R c y := by
              rcases List.mem_cons.1 hy' with e | e
              · subst e; exact rrefl _ hcn
              · have := (List.pairwise_append.1 (List.pairwise_append.1 hR).2.1).2.1
                exact (List.pairwise_cons.1 this).1 y e
            have hax : R a x := by
              rcases List.mem_append.1 haB with e | e
              · have := (List.pairwise_append.1 (List.pairwise_append.1 (List.pairwise_append.1 hR).2.1).1).2.2
                exact this a e x (by simp)
              · simp only [List.mem_singleton] at e; subst e; exact rrefl _ hxn
            exact htie (rtrans c y x hcn hyn hxn hcy (rtrans y a x hyn han hxn hya hax)))
        (by simp)
      obtain ⟨π, p1, p2, p3⟩ := key1
      refine ⟨π, ?_, ?_, p3⟩
      · have hcond : (ne1 ks[c] last = true ∧ A.length ≠ A.length + B.length + 1 - 1) ↔ B ≠ [] := by
          rw [e1]
          constructor
          · intro h e; subst e; simp at h
          · intro h; exact ⟨rfl, by have := List.length_pos_iff.2 h; omega⟩
        have hlen' : A.length + B.length + 1 - A.length = (B ++ [x]).length := by simp; omega
        have : (if ne1 ks[c] last = true ∧ A.length ≠ A.length + B.length + 1 - 1 then
            (do let v ← sub (rowView (gather (A ++ ((B ++ [x]) ++ c :: C)) p) A.length (A.length + B.length + 1 - A.length))
                .ok (putRows (gather (A ++ ((B ++ [x]) ++ c :: C)) p) A.length v))
            else .ok (gather (A ++ ((B ++ [x]) ++ c :: C)) p) : Res (Page α)) = .ok (gather (A ++ (B' ++ c :: C)) p) := by
          rw [← b4, hlen']
          by_cases hBe : B = []
          · rw [if_neg (fun h => (hcond.1 h) hBe), if_neg (fun h => h hBe)]
          · rw [if_pos (hcond.2 hBe), if_pos hBe]
        rw [this, Res.bind_ok, e2, if_pos rfl, ← p1]
        simp only [List.length_append, hbl, List.length_nil, Nat.add_zero, List.nil_append, List.append_assoc,
          List.singleton_append, List.length_cons]
        rw [show A.length + B.length + 1 + 1 = A.length + (B.length + 1) + 1 by omega,
          show A.length + B.length + 1 = A.length + (B.length + 1) by omega]
      · exact (by simpa using p2 : π.Perm (A ++ (B' ++ c :: C))).trans hperm

/-! ### one level of the sort -/

/-- Order of row numbers by a list of keys. -/
def KLe (lek : κ → κ → Bool) (ks : List κ) (x y : Nat) : Prop :=
  ∀ a b, ks[x]? = some a → ks[y]? = some b → lek a b = true

/-- Either direction. -/
def KLeD (lek : κ → κ → Bool) (ks : List κ) (desc : Bool) (x y : Nat) : Prop :=
  if desc then KLe lek ks y x else KLe lek ks x y

theorem kleD_refl {lek : κ → κ → Bool} (h : Preord lek) (ks : List κ) (desc : Bool) (x : Nat) : KLeD lek ks desc x x := by
  have : KLe lek ks x x := by
    intro a b ha hb
    rw [ha] at hb; cases hb; exact h.refl a
  unfold KLeD; split <;> exact this

theorem kleD_trans {lek : κ → κ → Bool} (h : Preord lek) (ks : List κ) (desc : Bool) (x y z : Nat) (hy : y < ks.length)
    (h1 : KLeD lek ks desc x y) (h2 : KLeD lek ks desc y z) : KLeD lek ks desc x z := by
  have tr : ∀ x z, KLe lek ks x y → KLe lek ks y z → KLe lek ks x z := by
    intro x z h1 h2 a b ha hb
    have e := List.getElem?_eq_getElem hy
    exact h.trans _ _ _ (h1 a _ ha e) (h2 _ b e hb)
  unfold KLeD at *
  split
  · next e => rw [if_pos e] at h1 h2; exact tr z x h2 h1
  · next e => rw [if_neg e] at h1 h2; exact tr x z h1 h2

/-- The permutation used by the first pass. -/
def usedPerm (desc : Bool) (π : List Nat) : List Nat := if desc then π.reverse else π

theorem usedPerm_ok {lek : κ → κ → Bool} {ks : List κ} {π : List Nat} (desc : Bool) (h1 : π.Perm (List.range ks.length))
    (h2 : π.Pairwise (KLe lek ks)) :
    (usedPerm desc π).Perm (List.range ks.length) ∧ (usedPerm desc π).Pairwise (KLeD lek ks desc) := by
  cases desc with
  | false => exact ⟨h1, List.Pairwise.imp (S := KLeD lek ks false) (fun {a b} h => by simpa [KLeD] using h) h2⟩
  | true =>
    refine ⟨(List.reverse_perm π).trans h1, ?_⟩
    simp only [usedPerm, if_true, List.pairwise_reverse]
    exact List.Pairwise.imp (S := fun a b => KLeD lek ks true b a) (fun {a b} h => by simpa [KLeD] using h) h2

/-- First and second pass for one key column. -/
theorem level_ok (junk : α) {p : Page α} {n : Nat} (hp : p.WF) (hr : Rect p n) (hn : NoRowNames p) (hn0 : 0 < n)
    (key : Page α → Res (List κ)) (ks : List κ) (hkl : ks.length = n)
    (hkey : ∀ π, Below π n → π.length ≠ 0 → key (gather π p) = .ok (pick π ks))
    {lek : κ → κ → Bool} (hl : Preord lek) (desc : Bool) (π : List Nat) (h1 : π.Perm (List.range ks.length))
    (h2 : π.Pairwise (KLe lek ks)) (ne1 ne2 : κ → κ → Bool)
    (hne : ∀ (x y : Nat) a b, ks[x]? = some a → ks[y]? = some b →
      (ne1 b a = true ↔ ¬ (lek a b = true ∧ lek b a = true)) ∧ (ne2 a b = true ↔ ¬ (lek a b = true ∧ lek b a = true)))
    (Rest : Nat → Nat → Prop) (sub : Page α → Res (Page α)) (hsub : SubOk p n Rest sub) :
    ∃ π', (do
        let p ← rearrange junk p (usedPerm desc π)
        let ks' ← key p
        let last ← rd ks' 0
        blocks key ne1 ne2 sub ks.length ks.length 1 0 last p) = Res.ok (gather π' p) ∧ π'.Perm (List.range n) ∧
      π'.Pairwise (fun i j => KLeD lek ks desc i j ∧ (KLeD lek ks desc j i → Rest i j)) := by
  obtain ⟨u1, u2⟩ := usedPerm_ok desc h1 h2
  generalize usedPerm desc π = ρ at u1 u2
  rw [hkl] at u1
  have hb : Below ρ n := below_of_perm u1
  have hlen : ρ.length = n := by simpa using u1.length_eq
  rw [rearrange_eq junk hp hr ρ u1, Res.bind_ok, hkey ρ hb (by omega), Res.bind_ok]
  cases ρ with
  | nil => simp at hlen; omega
  | cons x C =>
    have hx : x < ks.length := by rw [hkl]; exact hb x (by simp)
    have hx' := List.getElem?_eq_getElem hx
    have hrd : rd (pick (x :: C) ks) 0 = .ok ks[x] := by
      rw [rd_eq_ok, (pick_spec _ ks (by rw [hkl]; exact hb)).2]; simp [hx']
    rw [hrd, Res.bind_ok]
    have hne' : ∀ (x y : Nat) a b, ks[x]? = some a → ks[y]? = some b → KLeD lek ks desc x y →
        (ne1 b a = true ↔ ¬ KLeD lek ks desc y x) ∧ (ne2 a b = true ↔ ¬ KLeD lek ks desc y x) := by
      intro x y a b ha hb hxy
      have kk : ∀ (x y : Nat) a b, ks[x]? = some a → ks[y]? = some b → (KLe lek ks x y ↔ lek a b = true) := by
        intro x y a b ha hb
        refine ⟨fun h => h a b ha hb, fun h a' b' ha' hb' => ?_⟩
        rw [ha] at ha'; rw [hb] at hb'; cases ha'; cases hb'; exact h
      obtain ⟨e1, e2⟩ := hne x y a b ha hb
      rw [e1, e2]
      unfold KLeD at *
      cases desc with
      | false =>
        simp only [Bool.false_eq_true, if_false, kk x y a b ha hb, kk y x b a hb ha] at *
        simp [hxy]
      | true =>
        simp only [if_true, kk x y a b ha hb, kk y x b a hb ha] at *
        simp [hxy]
    obtain ⟨π', q1, q2, q3, q4⟩ := blocks_ok hp hr hn key ks hkl hkey (KLeD lek ks desc)
      (fun x _ => kleD_refl hl ks desc x) (fun x y z _ hy _ => kleD_trans hl ks desc x y z (by rw [hkl]; exact hy)) ne1 ne2 hne' Rest sub hsub
      C [] [] x ks[x] (by simpa using hb) hx' (by simpa using hlen) (by simpa using u2) (by simp) (by simp) (by simp)
    refine ⟨π', ?_, (by simpa using q2 : π'.Perm (x :: C)).trans u1, q3.and q4⟩
    rw [← q1]
    have : ks.length = C.length + 1 := by rw [hkl, ← hlen]; simp
    simp [hkl, ← hlen]

/-- The strings that `strcasecmp` identifies in this column are equal. -/
def CaseClean (p : Page α) (c : Col) : Prop :=
  ∀ x y a b, txtAt p c x = some a → txtAt p c y = some b → caseEq a b = true → a = b

theorem cellLe_num {p : Page α} {c : Col} {ks : List α} (le : α → α → Bool) (ht : c.isText = false)
    (h : ∀ i : Nat, ks[i]? = numAt p c i) (x y : Nat) : CellLe le p c x y ↔ KLe le ks x y := by
  have : ∀ i, txtAt p c i = none := by intro i; cases c <;> first | rfl | cases ht
  simp [CellLe, KLe, h, this]

theorem cellLe_txt {p : Page α} {c : Col} {ks : List CStr} (le : α → α → Bool) (ht : c.isText = true)
    (h : ∀ i : Nat, ks[i]? = txtAt p c i) (x y : Nat) : CellLe le p c x y ↔ KLe strLe ks x y := by
  have : ∀ i, numAt p c i = none := by intro i; cases c <;> first | rfl | cases ht
  simp [CellLe, KLe, h, this]

theorem lexLeD_iff {p : Page α} {c : Col} {cs : List Col} {ks : List κ} {lek : κ → κ → Bool} (le : α → α → Bool) (desc : Bool)
    (h : ∀ x y, CellLe le p c x y ↔ KLe lek ks x y) (i j : Nat) :
    LexLeD le p desc (c :: cs) i j ↔ KLeD lek ks desc i j ∧ (KLeD lek ks desc j i → LexLe le p cs i j) := by
  simp only [LexLeD, h, KLeD]
  split <;> rfl

theorem lexLeD_asc {p : Page α} (le : α → α → Bool) (cs : List Col) (i j : Nat) : LexLeD le p false cs i j ↔ LexLe le p cs i j := by
  cases cs <;> simp [LexLeD, LexLe]

theorem strPreord : Preord strLe := ⟨strLe_total, fun _ _ _ => strLe_trans⟩

/-- Keys after rearranging. -/
theorem numKey {p : Page α} {n : Nat} (hp : p.WF) (hr : Rect p n) (hn : NoRowNames p) (hn0 : 0 < n) (c : Col) (hc : HasCol p n c)
    (ht : c.isText = false) (ks : List α) (hkl : ks.length = n) (hk : ∀ i : Nat, ks[i]? = numAt p c i) (π : List Nat)
    (hb : Below π n) (hl : π.length ≠ 0) : numCol (gather π p) c = .ok (pick π ks) := by
  have hs := shows_gather p π hn
  obtain ⟨w, r⟩ := rect_gather hp hr π hb hl
  obtain ⟨ks', e1, e2, e3⟩ := numCol_ok w r c (hs.hasCol hn hn0 c hc) ht
  rw [e1]
  congr 1
  obtain ⟨q1, q2⟩ := pick_spec π ks (by rw [hkl]; exact hb)
  apply List.ext_getElem?
  intro i
  rw [e3, q2]
  cases h : π[i]? with
  | some x => rw [hs.numAt hr hb c i x h]; exact (hk x).symm
  | none =>
    rw [← e3]
    have := List.getElem?_eq_none_iff.1 h
    rw [List.getElem?_eq_none (by omega)]; rfl

theorem txtKey {p : Page α} {n : Nat} (hp : p.WF) (hr : Rect p n) (hn : NoRowNames p) (hn0 : 0 < n) (c : Col) (hc : HasCol p n c)
    (ht : c.isText = true) (ks : List CStr) (hkl : ks.length = n) (hk : ∀ i : Nat, ks[i]? = txtAt p c i) (π : List Nat)
    (hb : Below π n) (hl : π.length ≠ 0) : txtCol (gather π p) c = .ok (pick π ks) := by
  have hs := shows_gather p π hn
  obtain ⟨w, r⟩ := rect_gather hp hr π hb hl
  obtain ⟨ks', e1, e2, e3⟩ := txtCol_ok w c (hs.hasCol hn hn0 c hc) ht
  rw [e1]
  congr 1
  obtain ⟨q1, q2⟩ := pick_spec π ks (by rw [hkl]; exact hb)
  apply List.ext_getElem?
  intro i
  rw [e3, q2]
  cases h : π[i]? with
  | some x => rw [hs.txtAt hp hr hb hn c i x h]; exact (hk x).symm
  | none =>
    rw [← e3]
    have := List.getElem?_eq_none_iff.1 h
    rw [List.getElem?_eq_none (by omega)]; rfl

/-- Sorting by one column moves whole rows, row names included. -/
theorem sortBy_one (junk : α) {le : α → α → Bool} {S : Sorters α} (hS : S.Ok le) (desc : Bool) (c : Col)
    {p : Page α} {n : Nat} (hp : p.WF) (hr : Rect p n) (hc : HasCol p n c) :
    ∃ π, sortBy junk le S desc [c] p = .ok (gather π p) ∧ π.Perm (List.range n) ∧ π.Pairwise (LexLeD le p desc [c]) := by
  cases ht : c.isText with
  | false =>
    obtain ⟨ks, e1, e2, e3⟩ := numCol_ok hp hr c hc ht
    obtain ⟨u1, u2⟩ := usedPerm_ok (lek := le) (ks := ks) desc (hS.numsPerm ks) (hS.numsSorted ks)
    rw [e2] at u1
    refine ⟨_, ?_, u1, u2.imp ?_⟩
    · simp only [sortBy, ht, Bool.false_eq_true, if_false, e1, Res.bind_ok]
      exact rearrange_eq junk hp hr (usedPerm desc (S.nums ks)) u1
    · intro a b h
      rw [lexLeD_iff le desc (cellLe_num le ht e3)]
      exact ⟨h, fun _ => trivial⟩
  | true =>
    obtain ⟨ks, e1, e2, e3⟩ := txtCol_ok hp c hc ht
    obtain ⟨u1, u2⟩ := usedPerm_ok (lek := strLe) (ks := ks) desc (hS.strsPerm ks) (hS.strsSorted ks)
    rw [e2] at u1
    refine ⟨_, ?_, u1, u2.imp ?_⟩
    · simp only [sortBy, ht, if_true, e1, Res.bind_ok]
      exact rearrange_eq junk hp hr (usedPerm desc (S.strs ks)) u1
    · intro a b h
      rw [lexLeD_iff le desc (cellLe_txt le ht e3)]
      exact ⟨h, fun _ => trivial⟩

theorem sortBy_ok (junk : α) {le : α → α → Bool} (hle : Preord le) {S : Sorters α} (hS : S.Ok le) :
    ∀ (cs : List Col), cs ≠ [] → ∀ (desc : Bool) (p : Page α) (n : Nat), p.WF → Rect p n → NoRowNames p → 0 < n →
    (∀ c ∈ cs, HasCol p n c) → (∀ c ∈ cs, CaseClean p c) →
    ∃ π, sortBy junk le S desc cs p = .ok (gather π p) ∧ π.Perm (List.range n) ∧ π.Pairwise (LexLeD le p desc cs)
  | [], h, _, _, _, _, _, _, _, _, _ => absurd rfl h
  | [c], _, desc, p, n, hp, hr, _, _, hc, _ => sortBy_one junk hS desc c hp hr (hc c (by simp))
  | c :: c' :: cs, _, desc, p, n, hp, hr, hn, hn0, hc, hcc => by
    have hsub : SubOk p n (LexLe le p (c' :: cs)) (sortBy junk le S false (c' :: cs)) := by
      intro B v hb h2 hv
      obtain ⟨w, r⟩ := hv.wfRect hp hr hb (by omega)
      obtain ⟨σ, s1, s2, s3⟩ := sortBy_ok junk hle hS (c' :: cs) (by simp) false v B.length w r hv.nms (by omega)
        (fun d hd => hv.hasCol hn hn0 d (hc d (by simp at hd ⊢; exact Or.inr hd)))
        (fun d hd x y a b ha hb' hab => by
          have lt_of : ∀ (z : Nat) (s : CStr), Sort.txtAt v d z = some s → z < B.length := by
            intro z s hs
            cases d with
            | text j =>
              simp only [Sort.txtAt, hv.txt] at hs
              cases h : (pick B p.text)[z]? with
              | none => rw [h] at hs; cases hs
              | some r =>
                have h3 := (List.getElem?_eq_some_iff.1 h).1
                exact Nat.lt_of_lt_of_le h3 (List.length_filterMap_le _ _)
            | name =>
              simp only [Sort.txtAt] at hs
              cases h : v.names with
              | none => rw [h] at hs; cases hs
              | some nm => rw [h] at hs; simp [hv.nms nm h] at hs
            | vec => cases hs
            | wts => cases hs
            | mat j => cases hs
          have hx := lt_of x a ha
          have hy := lt_of y b hb'
          rw [hv.txtAt hp hr hb hn d x _ (List.getElem?_eq_getElem hx)] at ha
          rw [hv.txtAt hp hr hb hn d y _ (List.getElem?_eq_getElem hy)] at hb'
          exact hcc d (by simp at hd ⊢; exact Or.inr hd) _ _ a b ha hb' hab)
      refine ⟨σ, s2, s1, ?_⟩
      have hσb := below_of_perm s2
      obtain ⟨q1, q2⟩ := pick_spec σ B hσb
      rw [List.pairwise_iff_getElem] at s3 ⊢
      intro i j hi hj hij
      have hi' : i < σ.length := by omega
      have hj' : j < σ.length := by omega
      have hh := (lexLeD_asc le (c' :: cs) _ _).1 (s3 i j hi' hj' hij)
      have g : ∀ (k : Nat) (hk : k < (pick σ B).length) (hk' : k < σ.length), B[σ[k]]? = some (pick σ B)[k] := by
        intro k hk hk'
        have := q2 k
        rw [List.getElem?_eq_getElem hk, List.getElem?_eq_getElem hk'] at this
        exact this.symm
      exact (hv.lexLe le hp hr hb hn (c' :: cs) _ _ _ _ (g i hi hi') (g j hj hj')).1 hh
    cases ht : c.isText with
    | false =>
      obtain ⟨ks, e1, e2, e3⟩ := numCol_ok hp hr c (hc c (by simp)) ht
      obtain ⟨π, p1, p2, p3⟩ := level_ok junk hp hr hn hn0 (fun p => numCol p c) ks e2
        (numKey hp hr hn hn0 c (hc c (by simp)) ht ks e2 e3) hle desc (S.nums ks) (hS.numsPerm ks) (hS.numsSorted ks)
        (neNum le) (neNum le) (by
          intro x y a b _ _
          simp [neNum, Bool.and_comm, Classical.or_iff_not_imp_left])
        (LexLe le p (c' :: cs)) _ hsub
      refine ⟨π, ?_, p2, p3.imp ?_⟩
      · simp only [sortBy, ht, Bool.false_eq_true, if_false, e1, Res.bind_ok]
        exact p1
      · intro a b h
        exact (lexLeD_iff le desc (cellLe_num le ht e3) a b).2 h
    | true =>
      obtain ⟨ks, e1, e2, e3⟩ := txtCol_ok hp c (hc c (by simp)) ht
      obtain ⟨π, p1, p2, p3⟩ := level_ok junk hp hr hn hn0 (fun p => txtCol p c) ks e2
        (txtKey hp hr hn hn0 c (hc c (by simp)) ht ks e2 e3) strPreord desc (S.strs ks) (hS.strsPerm ks) (hS.strsSorted ks)
        (fun a b => !caseEq a b) (fun a b => a != b) (by
          intro x y a b ha hb
          have cc : caseEq a b = true → a = b := hcc c (by simp) x y a b (by rw [← e3]; exact ha) (by rw [← e3]; exact hb)
          have both : (strLe a b = true ∧ strLe b a = true) ↔ a = b := by
            constructor
            · intro h; exact cc (strLe_antisymm h.1 h.2)
            · intro h; subst h; exact ⟨strLe_refl _, strLe_refl _⟩
          rw [both]
          constructor
          · simp only [Bool.not_eq_true']
            constructor
            · intro h e; subst e; rw [caseEq_refl] at h; cases h
            · intro h
              cases hh : caseEq b a with
              | false => rfl
              | true => exact absurd (cc (by rw [caseEq_comm]; exact hh)) h
          · simp)
        (LexLe le p (c' :: cs)) _ hsub
      refine ⟨π, ?_, p2, p3.imp ?_⟩
      · simp only [sortBy, ht, if_true, e1, Res.bind_ok]
        exact p1
      · intro a b h
        exact (lexLeD_iff le desc (cellLe_txt le ht e3) a b).2 h

end Apop.Sort
