import Verif.Data.Model
import Mathlib.Data.List.Basic
import Mathlib.Tactic.Ring
import Mathlib.Tactic.Linarith

/-! # C79: models with some parameters fixed -/

namespace Apop.Fix
variable {α : Type}

/-- A page of a parameter set: vector and matrix; `none` as an element is NaN. -/
structure P (α : Type) where
  vec : Option (List (Option α))
  mat : Option (Mat (Option α))

/-! ## The models -/

/-- A row of the table of free parameters, `addin`, transform/apop_fix_params.c:15-26: row, column (-1: the vector) and page. -/
abbrev Entry := ℕ × ℤ × ℕ

/-- `find_missing`, transform/apop_fix_params.c:32-34: the loop over the vector, from row `i`. -/
def vecLoop (page : ℕ) : List (Option α) → ℕ → List Entry
  | [], _ => []
  | x :: v, i => (if x.isNone then [(i, -1, page)] else []) ++ vecLoop page v (i + 1)

/-- `find_missing`, lines 36-38: the loop over the columns of row `i`, from column `j`. -/
def colLoop (page i : ℕ) : List (Option α) → ℕ → List Entry
  | [], _ => []
  | x :: v, j => (if x.isNone then [(i, (j : ℤ), page)] else []) ++ colLoop page i v (j + 1)

/-- `find_missing`, lines 35-38: the loop over the rows, from row `i`. -/
def rowLoop (page : ℕ) : List (List (Option α)) → ℕ → List Entry
  | [], _ => []
  | r :: rs, i => colLoop page i r 0 ++ rowLoop page rs (i + 1)

/-- `find_missing`, transform/apop_fix_params.c:28-40. -/
def findMissing (p : P α) (page : ℕ) : List Entry :=
  (match p.vec with | none => [] | some v => vecLoop page v 0) ++ (match p.mat with | none => [] | some m => rowLoop page m.rows 0)

/-- `apop_predict_table_prep`, transform/apop_fix_params.c:42-54. -/
def tablePrep : List (P α) → ℕ → List Entry
  | [], _ => []
  | p :: ps, page => findMissing p page ++ tablePrep ps (page + 1)

/-- `apop_data_set(page, .row, .col, .val)` (C11), as used by `apop_data_predict_fill`: column -1 is the vector. Out of range is undefined behaviour here. -/
def setCell (p : P α) (row : ℕ) (col : ℤ) (x : Option α) : Res (P α) :=
  match col with
  | .negSucc _ =>
    match p.vec with
    | none => .ub
    | some v => if row < v.length then .ok { p with vec := some (v.set row x) } else .ub
  | .ofNat j =>
    match p.mat with
    | none => .ub
    | some m =>
      match m.rows[row]? with
      | none => .ub
      | some r => if j < r.length then .ok { p with mat := some { m with rows := m.rows.set row (r.set j x) } } else .ub

/-- `apop_data_get(page, row, col)` for the same positions. -/
def getCell (p : P α) (row : ℕ) (col : ℤ) : Res (Option α) :=
  match col with
  | .negSucc _ =>
    match p.vec with
    | none => .ub
    | some v => rd v row
  | .ofNat j =>
    match p.mat with
    | none => .ub
    | some m =>
      match m.rows[row]? with
      | none => .ub
      | some r => rd r j

/-- `apop_data_predict_fill`, transform/apop_fix_params.c:66-80. `ct` is the page the walk has reached; an earlier page, or one after the last, is walking off the end of the list. -/
def predictFill : List (Entry × Option α) → ℕ → List (P α) → Res (List (P α))
  | [], _, ps => .ok ps
  | ((row, col, page), x) :: es, ct, ps =>
    if page < ct then .ub
    else match ps[page]? with
      | none => .ub
      | some p => do
        let p' ← setCell p row col x
        predictFill es page (ps.set page p')

/-- `unpack`, transform/apop_fix_params.c:92-98: the free parameters go to the value column, which must be of their number, and from there to their places. -/
def unpack (table : List Entry) (params : List (Option α)) (out : List (P α)) : Res (List (P α)) :=
  if params.length = table.length then predictFill (table.zip params) 0 out else .ub

/-- `pack`, transform/apop_fix_params.c:100-114. The settings' `ct` is never set, so `i < ct-1` (line 107) never holds, and all is read from the first page. -/
def pack : List Entry → List (P α) → Res (List (Option α))
  | [], _ => .ok []
  | _ :: _, [] => .ub
  | (row, col, _) :: es, p :: ps => do
    let x ← getCell p row col
    .ok (x :: (← pack es (p :: ps)))

/-! ## Specification -/

/-- All the elements: page by page, vector first, then the matrix row by row. -/
def cells (ps : List (P α)) : List (Option α) := ps.flatMap fun p => p.vec.getD [] ++ ((p.mat.map (·.rows)).getD []).flatten

/-- The gaps filled in order. -/
def fillGaps : List (Option α) → List (Option α) → List (Option α)
  | [], _ => []
  | some x :: l, θ => some x :: fillGaps l θ
  | none :: l, t :: θ => t :: fillGaps l θ
  | none :: l, [] => none :: fillGaps l []

/-- How many elements are to be found. -/
def gaps (l : List (Option α)) : ℕ := l.countP Option.isNone

/-- The elements of `l` at the gaps of `l0`. -/
def atGaps : List (Option α) → List (Option α) → List (Option α)
  | none :: l0, x :: l => x :: atGaps l0 l
  | some _ :: l0, _ :: l => atGaps l0 l
  | _, _ => []

/-- The shape of a page. -/
def shape (p : P α) : Option ℕ × Option (ℕ × ℕ) := (p.vec.map List.length, p.mat.map fun m => (m.size1, m.cols))

/-- Rectangular matrices. -/
def WF (ps : List (P α)) : Prop := ∀ p ∈ ps, ∀ m, p.mat = some m → m.WF

/-- `ps` may differ from `ps0` only at the gaps of `ps0`. -/
def Agree (l0 l : List (Option α)) : Prop := List.Forall₂ (fun a b => ∀ x, a = some x → b = some x) l0 l

/-! ## Proofs -/

/-- The positions of the gaps in a list, from `k`. -/
def gapsAt : List (Option α) → ℕ → List ℕ
  | [], _ => []
  | x :: v, k => (if x.isNone then [k] else []) ++ gapsAt v (k + 1)

theorem gapsAt_append (a b : List (Option α)) (k : ℕ) : gapsAt (a ++ b) k = gapsAt a k ++ gapsAt b (k + a.length) := by
  induction a generalizing k with
  | nil => simp [gapsAt]
  | cons x a ih => simp only [List.cons_append, gapsAt, ih, List.append_assoc, List.length_cons]; congr 3; ring

theorem gapsAt_length (l : List (Option α)) (k : ℕ) : (gapsAt l k).length = gaps l := by
  induction l generalizing k with
  | nil => rfl
  | cons x l ih => cases x <;> simp [gapsAt, gaps, ih, add_comm]

def pageCells (p : P α) : List (Option α) := p.vec.getD [] ++ ((p.mat.map (·.rows)).getD []).flatten

theorem cells_cons (p : P α) (ps : List (P α)) : cells (p :: ps) = pageCells p ++ cells ps := by simp [cells, pageCells]
theorem cells_append (a b : List (P α)) : cells (a ++ b) = cells a ++ cells b := by simp [cells]

/-- The place of a cell among the elements of its page. -/
def offIn (p : P α) (row : ℕ) : ℤ → ℕ
  | .negSucc _ => row
  | .ofNat j => (p.vec.getD []).length + row * ((p.mat.map (·.cols)).getD 0) + j

/-- A cell is within the page. -/
def InPage (p : P α) (row : ℕ) : ℤ → Prop
  | .negSucc _ => ∃ v, p.vec = some v ∧ row < v.length
  | .ofNat j => ∃ m, p.mat = some m ∧ row < m.size1 ∧ j < m.cols

/-- The place of an entry in the list of all elements. -/
def place (ps : List (P α)) (e : Entry) : ℕ :=
  (cells (ps.take e.2.2)).length + match ps[e.2.2]? with
    | none => 0
    | some p => offIn p e.1 e.2.1

/-- An entry is within its page. -/
def Inside (ps : List (P α)) (e : Entry) : Prop :=
  match ps[e.2.2]? with
  | none => False
  | some p => InPage p e.1 e.2.1

theorem flatten_set_aux (c : ℕ) : ∀ (rows : List (List (Option α))) (i j : ℕ) (r : List (Option α)) (x : Option α), (∀ r ∈ rows, r.length = c) → rows[i]? = some r → j < c →
    (rows.set i (r.set j x)).flatten = rows.flatten.set (i * c + j) x ∧ rows.flatten[i * c + j]? = r[j]?
  | [], i, j, r, x, _, h, _ => by simp at h
  | r0 :: rs, 0, j, r, x, hw, h, hj => by
    simp only [List.getElem?_cons_zero, Option.some.injEq] at h
    subst h
    have := hw r0 (by simp)
    simp only [List.set_cons_zero, List.flatten_cons, zero_mul, zero_add]
    exact ⟨by rw [List.set_append_left _ _ (by omega)], by rw [List.getElem?_append_left (by omega)]⟩
  | r0 :: rs, i + 1, j, r, x, hw, h, hj => by
    have h0 := hw r0 (by simp)
    simp only [List.getElem?_cons_succ] at h
    obtain ⟨e1, e2⟩ := flatten_set_aux c rs i j r x (fun r hr => hw r (by simp [hr])) h hj
    have ea : (i + 1) * c + j = r0.length + (i * c + j) := by rw [h0]; ring
    simp only [List.set_cons_succ, List.flatten_cons, ea]
    constructor
    · rw [List.set_append_right _ _ (by omega), e1]; congr 2; omega
    · rw [List.getElem?_append_right (by omega)]; rw [← e2]; congr 1; omega

theorem shape_of_set (m : Mat (Option α)) (i : ℕ) (r : List (Option α)) (hm : m.WF) (hr : r.length = m.cols) : (⟨m.rows.set i r, m.cols⟩ : Mat (Option α)).WF := by
  intro q hq
  rcases List.mem_or_eq_of_mem_set hq with h | rfl
  · exact hm q h
  · exact hr

/-- Writing a cell of a page: what becomes of its elements. -/
theorem setCell_ok (p : P α) (row : ℕ) (col : ℤ) (x : Option α) (hw : ∀ m, p.mat = some m → m.WF)
    (h : InPage p row col) :
    ∃ p', setCell p row col x = .ok p' ∧ shape p' = shape p ∧ (∀ m, p'.mat = some m → m.WF) ∧
      pageCells p' = (pageCells p).set (offIn p row col) x ∧
      getCell p row col = .ok ((pageCells p).getD (offIn p row col) none) := by
  obtain ⟨vec, mat⟩ := p
  cases col with
  | negSucc n =>
    obtain ⟨v, hv, hr⟩ := h
    simp only at hv; subst hv
    refine ⟨⟨some (v.set row x), mat⟩, by simp [setCell, hr], by simp [shape], hw, ?_, ?_⟩
    · simp only [pageCells, Option.getD_some, offIn]; rw [List.set_append_left _ _ hr]
    · simp only [getCell, pageCells, Option.getD_some, rd_of_lt hr, offIn]
      rw [List.getD_eq_getElem?_getD, List.getElem?_append_left hr]; simp [hr]
  | ofNat j =>
    obtain ⟨m, hm, hr, hj⟩ := h
    simp only at hm; subst hm
    have hmw := hw m rfl
    have hr' : row < m.rows.length := hr
    have hrow : m.rows[row]? = some m.rows[row] := by simp [hr']
    have hlen : m.rows[row].length = m.cols := hmw _ (List.getElem_mem hr')
    obtain ⟨e1, e2⟩ := flatten_set_aux m.cols m.rows row j m.rows[row] x hmw hrow hj
    refine ⟨⟨vec, some ⟨m.rows.set row (m.rows[row].set j x), m.cols⟩⟩, ?_, ?_, ?_, ?_, ?_⟩
    · simp only [setCell, hrow]; rw [if_pos (by rw [hlen]; exact hj)]
    · simp [shape, Mat.size1]
    · intro m' hm'
      simp only [Option.some.injEq] at hm'
      subst hm'
      exact shape_of_set m row _ hmw (by simp [hlen])
    · simp only [pageCells, Option.map_some, Option.getD_some, e1, offIn]
      rw [List.set_append_right _ _ (by omega)]
      congr 2; omega
    · simp only [getCell, hrow, pageCells, Option.map_some, Option.getD_some, offIn]
      rw [rd_of_lt (by rw [hlen]; exact hj), List.getD_eq_getElem?_getD, List.getElem?_append_right (by omega),
        show (vec.getD []).length + row * m.cols + j - (vec.getD []).length = row * m.cols + j by omega, e2]
      simp [hlen, hj]

theorem split_at {ps : List (P α)} {k : ℕ} {p : P α} (h : ps[k]? = some p) : ∃ a b, ps = a ++ p :: b ∧ a.length = k ∧ ps.take k = a := by
  obtain ⟨hk, rfl⟩ := List.getElem?_eq_some_iff.1 h
  exact ⟨ps.take k, ps.drop (k + 1), by simp, by simp; omega, rfl⟩

/-- Two lists of pages of one shape: places and bounds are the same. -/
theorem shape_facts {ps qs : List (P α)} (h : ps.map shape = qs.map shape) (hp : WF ps) (hq : WF qs) :
    (∀ k, (cells (ps.take k)).length = (cells (qs.take k)).length) ∧ (∀ e, place ps e = place qs e) ∧ (∀ e, Inside ps e ↔ Inside qs e) := by
  have one : ∀ p q : P α, shape p = shape q → (∀ m, p.mat = some m → m.WF) → (∀ m, q.mat = some m → m.WF) → (p.vec.getD []).length = (q.vec.getD []).length ∧
      ((p.mat.map (·.cols)).getD 0) = ((q.mat.map (·.cols)).getD 0) ∧ (pageCells p).length = (pageCells q).length := by
    rintro ⟨v, m⟩ ⟨v', m'⟩ h hp hq
    simp only [shape, Prod.mk.injEq] at h
    obtain ⟨h1, h2⟩ := h
    have hv : (v.getD []).length = (v'.getD []).length := by
      cases v <;> cases v' <;> simp_all
    have fl : ∀ m : Mat (Option α), m.WF → m.rows.flatten.length = m.size1 * m.cols := by
      intro m hm
      rw [List.length_flatten, show m.rows.map List.length = List.replicate m.rows.length m.cols from
        List.eq_replicate_iff.2 ⟨by simp, by intro b hb; obtain ⟨r, hr, rfl⟩ := List.mem_map.1 hb; exact hm r hr⟩]
      simp [Mat.size1]
    refine ⟨hv, ?_, ?_⟩
    · cases m <;> cases m' <;> simp_all
    · simp only [pageCells, List.length_append, hv]
      congr 1
      cases m with
      | none => cases m' <;> simp_all
      | some m =>
        cases m' with
        | none => simp at h2
        | some m' =>
          simp only [Option.map_some, Option.some.injEq, Prod.mk.injEq] at h2
          simp only [Option.map_some, Option.getD_some]
          rw [fl m (hp m rfl), fl m' (hq m' rfl), h2.1, h2.2]
  have takes : ∀ k, (cells (ps.take k)).length = (cells (qs.take k)).length := by
    intro k
    induction k generalizing ps qs with
    | zero => simp [cells]
    | succ k ih =>
      cases ps with
      | nil => cases qs with
        | nil => rfl
        | cons => simp at h
      | cons p ps =>
        cases qs with
        | nil => simp at h
        | cons q qs =>
          simp only [List.map_cons, List.cons.injEq] at h
          simp only [List.take_succ_cons, cells_cons, List.length_append]
          rw [(one p q h.1 (hp p (by simp)) (hq q (by simp))).2.2, ih h.2 (fun r hr => hp r (by simp [hr])) (fun r hr => hq r (by simp [hr]))]
  have get : ∀ k : ℕ, (ps[k]? = none ∧ qs[k]? = none) ∨ ∃ p q, ps[k]? = some p ∧ qs[k]? = some q ∧ shape p = shape q ∧ p ∈ ps ∧ q ∈ qs := by
    intro k
    have hk : (ps.map shape)[k]? = (qs.map shape)[k]? := by rw [h]
    simp only [List.getElem?_map] at hk
    cases h1 : ps[k]? with
    | none => cases h2 : qs[k]? with
      | none => exact Or.inl ⟨rfl, rfl⟩
      | some q => rw [h1, h2] at hk; simp at hk
    | some p => cases h2 : qs[k]? with
      | none => rw [h1, h2] at hk; simp at hk
      | some q => rw [h1, h2] at hk; simp only [Option.map_some, Option.some.injEq] at hk; exact Or.inr ⟨p, q, rfl, rfl, hk, List.mem_of_getElem? h1, List.mem_of_getElem? h2⟩
  refine ⟨takes, ?_, ?_⟩
  · rintro ⟨row, col, page⟩
    unfold place
    rcases get page with ⟨h1, h2⟩ | ⟨p, q, h1, h2, hs, hp', hq'⟩
    · simp only [h1, h2, takes]
    · obtain ⟨e1, e2, -⟩ := one p q hs (hp p hp') (hq q hq')
      cases col <;> simp only [h1, h2, takes, e1, e2, offIn]
  · rintro ⟨row, col, page⟩
    unfold Inside
    rcases get page with ⟨h1, h2⟩ | ⟨p, q, h1, h2, hs, hp', hq'⟩
    · simp only [h1, h2]
    · simp only [h1, h2]
      obtain ⟨v, m⟩ := p
      obtain ⟨v', m'⟩ := q
      simp only [shape, Prod.mk.injEq] at hs
      obtain ⟨s1, s2⟩ := hs
      cases col with
      | negSucc n => cases v <;> cases v' <;> simp_all [InPage]
      | ofNat j => cases m <;> cases m' <;> simp_all [InPage]

theorem set_page {ps : List (P α)} {k : ℕ} {p p' : P α} (h : ps[k]? = some p) (hs : shape p' = shape p) (off : ℕ) (x : Option α) (hoff : off < (pageCells p).length)
    (hc : pageCells p' = (pageCells p).set off x) :
    (ps.set k p').map shape = ps.map shape ∧ cells (ps.set k p') = (cells ps).set ((cells (ps.take k)).length + off) x := by
  obtain ⟨a, b, rfl, rfl, ht⟩ := split_at h
  rw [ht, List.set_append_right _ _ (le_refl _)]
  simp only [Nat.sub_self, List.set_cons_zero]
  constructor
  · simp [hs]
  · simp only [cells_append, cells_cons, hc]
    rw [List.set_append_right _ _ (by omega), List.set_append_left _ _ (by omega)]
    congr 3; omega

/-- The run of `predictFill`: a run of writes to the list of all elements. -/
theorem predictFill_eq : ∀ (es : List (Entry × Option α)) (ct : ℕ) (ps : List (P α)), WF ps → (∀ e ∈ es, Inside ps e.1) → (es.map (·.1.2.2)).Pairwise (· ≤ ·) → (∀ e ∈ es, ct ≤ e.1.2.2) →
    ∃ qs, predictFill es ct ps = .ok qs ∧ qs.map shape = ps.map shape ∧ WF qs ∧ cells qs = es.foldl (fun l e => l.set (place ps e.1) e.2) (cells ps)
  | [], ct, ps, hw, _, _, _ => ⟨ps, rfl, rfl, hw, rfl⟩
  | ((row, col, page), x) :: es, ct, ps, hw, hin, hord, hct => by
    have h0 := hin ((row, col, page), x) (by simp)
    have hge := hct ((row, col, page), x) (by simp)
    simp only at hge
    cases hp : ps[page]? with
    | none => simp [Inside, hp] at h0
    | some p =>
      simp only [Inside, hp] at h0
      have hpm : p ∈ ps := List.mem_of_getElem? hp
      obtain ⟨p', e1, e2, e3, e4, -⟩ := setCell_ok p row col x (hw p hpm) h0
      set off : ℕ := offIn p row col with hoff
      have hlt : off < (pageCells p).length := by
        have hwp := hw p hpm
        obtain ⟨vec, mat⟩ := p
        cases col with
        | negSucc n => obtain ⟨v, hv, hr⟩ := h0; simp only at hv; subst hv; simp only [pageCells, List.length_append, hoff, Option.getD_some, offIn]; omega
        | ofNat j =>
          obtain ⟨m, hm, hr, hj⟩ := h0
          simp only at hm; subst hm
          have hr' : row < m.rows.length := hr
          have := (flatten_set_aux m.cols m.rows row j m.rows[row] x (hwp m rfl) (by simp [hr']) hj).2
          have hlen : m.rows[row].length = m.cols := hwp m rfl _ (List.getElem_mem hr')
          rw [List.getElem?_eq_getElem (l := m.rows[row]) (by rw [hlen]; exact hj)] at this
          have := (List.getElem?_eq_some_iff.1 this).1
          simp only [hoff, offIn, pageCells, List.length_append, Option.map_some, Option.getD_some]
          omega
      obtain ⟨s1, s2⟩ := set_page hp e2 off x hlt e4
      have hw' : WF (ps.set page p') := by
        intro q hq
        rcases List.mem_or_eq_of_mem_set hq with h | rfl
        · exact hw q h
        · exact e3
      obtain ⟨-, f2, f3⟩ := shape_facts s1 hw' hw
      have hpl : place ps (row, col, page) = (cells (ps.take page)).length + off := by
        simp only [place, hp, hoff]
      obtain ⟨qs, g1, g2, g3, g4⟩ := predictFill_eq es page (ps.set page p') hw' (fun e he => (f3 e.1).2 (hin e (by simp [he])))
        (by simp only [List.map_cons, List.pairwise_cons] at hord; exact hord.2)
        (by simp only [List.map_cons, List.pairwise_cons] at hord; intro e he; exact hord.1 _ (List.mem_map_of_mem he))
      refine ⟨qs, ?_, g2.trans s1, g3, ?_⟩
      · unfold predictFill
        rw [if_neg (by omega)]
        simp only [hp, e1, Res.bind_ok]
        exact g1
      · rw [g4, s2, ← hpl]
        simp only [List.foldl_cons, f2]

/-- Filling the gaps one by one. -/
theorem fold_fill : ∀ (l0 l : List (Option α)) (pre θ : List (Option α)), Agree l0 l → θ.length = gaps l0 →
    ((gapsAt l0 pre.length).zip θ).foldl (fun acc e => acc.set e.1 e.2) (pre ++ l) = pre ++ fillGaps l0 θ
  | [], l, pre, θ, h, hl => by cases h; simp [gapsAt, fillGaps]
  | some x :: l0, l, pre, θ, h, hl => by
    cases h with
    | @cons _ b _ l' h1 h2 =>
      rw [h1 x rfl]
      have ih := fold_fill l0 l' (pre ++ [some x]) θ h2 (by simpa [gaps] using hl)
      simp only [List.length_append, List.length_singleton, List.append_assoc, List.singleton_append] at ih
      simpa [gapsAt, fillGaps] using ih
  | none :: l0, l, pre, θ, h, hl => by
    cases h with
    | @cons _ b _ l' h1 h2 =>
      cases θ with
      | nil => simp [gaps] at hl
      | cons t θ =>
        have ih := fold_fill l0 l' (pre ++ [t]) θ h2 (by simpa [gaps] using hl)
        simp only [List.length_append, List.length_singleton, List.append_assoc, List.singleton_append] at ih
        simp only [gapsAt, Option.isNone_none, if_true, List.singleton_append, List.zip_cons_cons, List.foldl_cons, fillGaps]
        rw [List.set_append_right _ _ (le_refl _)]
        simpa using ih

/-! ### The table -/

theorem vecLoop_eq (page : ℕ) (v : List (Option α)) (i : ℕ) : vecLoop page v i = (gapsAt v i).map fun r => (r, -1, page) := by
  induction v generalizing i with
  | nil => rfl
  | cons x v ih => cases x <;> simp [vecLoop, gapsAt, ih]

theorem colLoop_eq (page i : ℕ) (v : List (Option α)) (j : ℕ) : colLoop page i v j = (gapsAt v j).map fun c : ℕ => (i, (c : ℤ), page) := by
  induction v generalizing j with
  | nil => rfl
  | cons x v ih => cases x <;> simp [colLoop, gapsAt, ih]

theorem gapsAt_lt (v : List (Option α)) (k : ℕ) : ∀ i ∈ gapsAt v k, k ≤ i ∧ i < k + v.length := by
  induction v generalizing k with
  | nil => simp [gapsAt]
  | cons x v ih =>
    intro i hi
    simp only [gapsAt, List.mem_append] at hi
    rcases hi with h | h
    · cases x with
      | none => simp at h; subst h; simp
      | some => simp at h
    · have := ih (k + 1) i h; simp; omega

theorem gapsAt_shift (v : List (Option α)) (k d : ℕ) : gapsAt v (k + d) = (gapsAt v k).map (· + d) := by
  induction v generalizing k with
  | nil => rfl
  | cons x v ih =>
    have := ih (k + 1)
    rw [show k + 1 + d = k + d + 1 by ring] at this
    cases x <;> simp [gapsAt, this]

theorem rowLoop_eq (page c : ℕ) : ∀ (rows : List (List (Option α))) (i : ℕ), (∀ r ∈ rows, r.length = c) →
    (∀ e ∈ rowLoop page rows i, e.2.2 = page ∧ ∃ j : ℕ, e.2.1 = j ∧ i ≤ e.1 ∧ e.1 < i + rows.length ∧ j < c) ∧
    (rowLoop page rows i).map (fun e => e.1 * c + e.2.1.toNat) = gapsAt rows.flatten (i * c)
  | [], i, _ => by simp [rowLoop, gapsAt]
  | r :: rs, i, hw => by
    have h0 := hw r (by simp)
    obtain ⟨ih1, ih2⟩ := rowLoop_eq page c rs (i + 1) (fun r hr => hw r (by simp [hr]))
    constructor
    · intro e he
      simp only [rowLoop, List.mem_append, colLoop_eq, List.mem_map] at he
      rcases he with ⟨j, hj, rfl⟩ | he
      · have := gapsAt_lt r 0 j hj
        exact ⟨rfl, j, rfl, le_refl _, by simp, by omega⟩
      · obtain ⟨a, j, b, c1, c2, d⟩ := ih1 e he
        refine ⟨a, j, b, by omega, by simp; omega, d⟩
    · simp only [rowLoop, List.map_append, ih2, List.flatten_cons, gapsAt_append, colLoop_eq, List.map_map]
      congr 1
      · have := gapsAt_shift r 0 (i * c)
        rw [zero_add] at this
        rw [this]
        apply List.map_congr_left
        intro j _
        simp [add_comm]
      · rw [h0]; congr 1; ring

theorem tablePrep_eq : ∀ (ps pre : List (P α)), WF (pre ++ ps) →
    (∀ e ∈ tablePrep ps pre.length, pre.length ≤ e.2.2 ∧ Inside (pre ++ ps) e) ∧ (tablePrep ps pre.length).map (place (pre ++ ps)) = gapsAt (cells ps) (cells pre).length ∧
    ((tablePrep ps pre.length).map (·.2.2)).Pairwise (· ≤ ·)
  | [], pre, _ => by simp [tablePrep, cells, gapsAt]
  | p :: ps, pre, hw => by
    have ih := tablePrep_eq ps (pre ++ [p]) (by simpa using hw)
    simp only [List.append_assoc, List.singleton_append, List.length_append, List.length_singleton] at ih
    obtain ⟨ih1, ih2, ih3⟩ := ih
    have hget : (pre ++ p :: ps)[pre.length]? = some p := by simp
    have htk : (pre ++ p :: ps).take pre.length = pre := by simp
    have hwp := hw p (by simp)
    obtain ⟨vec, mat⟩ := p
    have hvec : ∀ e ∈ (match vec with | none => [] | some v => vecLoop pre.length v 0), e.2.2 = pre.length ∧ Inside (pre ++ ⟨vec, mat⟩ :: ps) e := by
      intro e he
      cases vec with
      | none => simp at he
      | some v =>
        simp only [vecLoop_eq, List.mem_map] at he
        obtain ⟨r, hr, rfl⟩ := he
        refine ⟨rfl, ?_⟩
        simp only [Inside, hget]
        exact ⟨v, rfl, by have := gapsAt_lt v 0 r hr; omega⟩
    have hmat : ∀ e ∈ (match mat with | none => [] | some m => rowLoop pre.length m.rows 0), e.2.2 = pre.length ∧ Inside (pre ++ ⟨vec, mat⟩ :: ps) e := by
      intro e he
      cases mat with
      | none => simp at he
      | some m =>
        obtain ⟨a, j, b, c1, c2, d⟩ := (rowLoop_eq pre.length m.cols m.rows 0 (hwp m rfl)).1 e he
        refine ⟨a, ?_⟩
        obtain ⟨er, ec, ep⟩ := e
        simp only at a b c2
        subst a b
        simp only [Inside, hget]
        exact ⟨m, rfl, by simpa [Mat.size1] using c2, d⟩
    have hall : ∀ e ∈ findMissing ⟨vec, mat⟩ pre.length, e.2.2 = pre.length ∧ Inside (pre ++ ⟨vec, mat⟩ :: ps) e := by
      intro e he
      simp only [findMissing, List.mem_append] at he
      rcases he with h | h
      · exact hvec e h
      · exact hmat e h
    refine ⟨?_, ?_, ?_⟩
    · intro e he
      simp only [tablePrep, List.mem_append] at he
      rcases he with h | h
      · exact ⟨(hall e h).1.ge, (hall e h).2⟩
      · obtain ⟨a, b⟩ := ih1 e h
        exact ⟨by omega, b⟩
    · simp only [tablePrep, List.map_append, ih2, cells_cons, gapsAt_append, cells_append]
      congr 1
      · simp only [findMissing, pageCells, gapsAt_append, List.map_append]
        congr 1
        · cases vec with
          | none => simp [gapsAt]
          | some v =>
            simp only [vecLoop_eq, List.map_map, Option.getD_some]
            have := gapsAt_shift v 0 (cells pre).length
            rw [zero_add] at this
            rw [this]
            apply List.map_congr_left
            intro r _
            simp only [Function.comp, place, hget, htk]
            exact add_comm _ _
        · cases mat with
          | none => simp [gapsAt]
          | some m =>
            have e2 := (rowLoop_eq pre.length m.cols m.rows 0 (hwp m rfl)).2
            rw [zero_mul] at e2
            have := gapsAt_shift m.rows.flatten 0 ((cells pre).length + (vec.getD []).length)
            rw [zero_add] at this
            simp only [Option.map_some, Option.getD_some]
            rw [this, ← e2, List.map_map]
            apply List.map_congr_left
            intro e he
            obtain ⟨a, j, b, c1, c2, d⟩ := (rowLoop_eq pre.length m.cols m.rows 0 (hwp m rfl)).1 e he
            obtain ⟨er, ec, ep⟩ := e
            simp only at a b
            subst a b
            simp only [place, hget, htk, Function.comp, Option.map_some, Option.getD_some, Int.toNat_natCast]
            simp only [offIn, Option.map_some, Option.getD_some, Int.ofNat_eq_natCast]
            try ring
      · simp [cells]
    · simp only [tablePrep, List.map_append]
      rw [List.pairwise_append]
      refine ⟨?_, ih3, ?_⟩
      · have : (findMissing ⟨vec, mat⟩ pre.length).map (·.2.2) = List.replicate (findMissing ⟨vec, mat⟩ pre.length).length pre.length := by
          apply List.eq_replicate_iff.2
          refine ⟨by simp, ?_⟩
          intro b hb
          obtain ⟨e, he, rfl⟩ := List.mem_map.1 hb
          exact (hall e he).1
        rw [this]
        exact List.pairwise_replicate.2 (Or.inr (le_refl _))
      · intro a ha b hb
        obtain ⟨e, he, rfl⟩ := List.mem_map.1 ha
        obtain ⟨e', he', rfl⟩ := List.mem_map.1 hb
        have := (hall e he).1
        have := (ih1 e' he').1
        omega

theorem table_length {ps : List (P α)} (hw : WF ps) : (tablePrep ps 0).length = gaps (cells ps) := by
  have := (tablePrep_eq ps [] hw).2.1
  have := congrArg List.length this
  simpa [gapsAt_length, cells] using this

/-- **C79 (filling).** The fixed model has as many parameters as there are NaNs in the parameters given. Whatever its base model holds at their places, evaluating it with parameters `θ` sets the base model's parameters to those given, with the NaNs replaced by `θ` in order, and leaves its shape. -/
theorem C79_fill (ps0 ps : List (P α)) (hw0 : WF ps0) (hw : WF ps) (hs : ps.map shape = ps0.map shape) (ha : Agree (cells ps0) (cells ps)) (θ : List (Option α)) (hθ : θ.length = gaps (cells ps0)) :
    ∃ qs, unpack (tablePrep ps0 0) θ ps = .ok qs ∧ qs.map shape = ps0.map shape ∧ WF qs ∧ cells qs = fillGaps (cells ps0) θ := by
  obtain ⟨t1, t2, t3⟩ := tablePrep_eq ps0 [] hw0
  simp only [List.length_nil, List.nil_append, cells, List.flatMap_nil] at t1 t2 t3
  have hlen := table_length hw0
  obtain ⟨-, f2, f3⟩ := shape_facts hs hw hw0
  obtain ⟨qs, g1, g2, g3, g4⟩ := predictFill_eq ((tablePrep ps0 0).zip θ) 0 ps hw (fun e he => (f3 e.1).2 (t1 e.1 (List.of_mem_zip he).1).2)
    (by
      have : ((tablePrep ps0 0).zip θ).map (·.1.2.2) = (tablePrep ps0 0).map (·.2.2) := by
        rw [show (fun x : Entry × Option α => x.1.2.2) = (fun e : Entry => e.2.2) ∘ Prod.fst from rfl, ← List.map_map, List.map_fst_zip (by omega)]
      rw [this]; exact t3)
    (fun e _ => Nat.zero_le _)
  refine ⟨qs, ?_, g2.trans hs, g3, ?_⟩
  · rw [unpack, if_pos (by omega)]; exact g1
  · rw [g4]
    have := fold_fill (cells ps0) (cells ps) [] θ ha hθ
    simp only [List.nil_append, List.length_nil] at this
    rw [← this]
    have t2' : gapsAt (cells ps0) 0 = (tablePrep ps0 0).map (place ps0) := by rw [t2]; rfl
    rw [t2', List.zip_map_left, List.foldl_map]
    simp only [f2, Prod.map_fst, Prod.map_snd, id]

theorem agree_fill : ∀ (l θ : List (Option α)), Agree l (fillGaps l θ)
  | [], θ => List.Forall₂.nil
  | some x :: l, θ => List.Forall₂.cons (fun y h => h) (agree_fill l θ)
  | none :: l, t :: θ => List.Forall₂.cons (fun y h => by simp at h) (agree_fill l θ)
  | none :: l, [] => List.Forall₂.cons (fun y h => by simp at h) (agree_fill l [])

theorem agree_refl : ∀ (l : List (Option α)), Agree l l
  | [] => List.Forall₂.nil
  | x :: l => List.Forall₂.cons (fun _ h => h) (agree_refl l)

/-- A run of evaluations of the fixed model, each with its own parameters: what the base model's parameters are after it. -/
def run (table : List Entry) : List (List (Option α)) → List (P α) → Res (List (P α))
  | [], ps => .ok ps
  | θ :: θs, ps => do run table θs (← unpack table θ ps)

/-- **C79 (histories).** After any number of evaluations the base model's parameters are the ones given with the NaNs filled by the last evaluation's parameters: fixed parameters never change, and nothing of an earlier evaluation is left. -/
theorem C79_history (ps0 : List (P α)) (hw0 : WF ps0) (θs : List (List (Option α))) (θ : List (Option α)) (h : ∀ t ∈ θs, t.length = gaps (cells ps0)) (hθ : θ.length = gaps (cells ps0)) :
    ∃ qs, run (tablePrep ps0 0) (θs ++ [θ]) ps0 = .ok qs ∧ qs.map shape = ps0.map shape ∧ cells qs = fillGaps (cells ps0) θ := by
  have gen : ∀ (θs : List (List (Option α))) (ps : List (P α)), (∀ t ∈ θs, t.length = gaps (cells ps0)) → WF ps → ps.map shape = ps0.map shape → Agree (cells ps0) (cells ps) →
      ∃ qs, run (tablePrep ps0 0) (θs ++ [θ]) ps = .ok qs ∧ qs.map shape = ps0.map shape ∧ cells qs = fillGaps (cells ps0) θ := by
    intro θs
    induction θs with
    | nil =>
      intro ps _ hw hs ha
      obtain ⟨qs, e1, e2, -, e4⟩ := C79_fill ps0 ps hw0 hw hs ha θ hθ
      exact ⟨qs, by simp [run, e1], e2, e4⟩
    | cons t θs ih =>
      intro ps h hw hs ha
      obtain ⟨qs, e1, e2, e3, e4⟩ := C79_fill ps0 ps hw0 hw hs ha t (h t (by simp))
      obtain ⟨rs, r1, r2, r3⟩ := ih qs (fun t ht => h t (by simp [ht])) e3 e2 (by rw [e4]; exact agree_fill _ _)
      exact ⟨rs, by simp [run, e1, r1], r2, r3⟩
  exact gen θs ps0 h hw0 rfl (agree_refl _)

/-! ### Reading the parameters back -/

theorem pack_ok {p : P α} {ps : List (P α)} {g : Entry → Option α} : ∀ (es : List Entry), (∀ e ∈ es, getCell p e.1 e.2.1 = .ok (g e)) → pack es (p :: ps) = .ok (es.map g)
  | [], _ => rfl
  | (row, col, k) :: es, h => by
    have h0 := h (row, col, k) (by simp)
    simp only at h0
    simp only [pack, h0, Res.bind_ok, pack_ok es fun y hy => h y (by simp [hy]), List.map_cons]

theorem gapsAt_get : ∀ (l0 l pre : List (Option α)), l0.length = l.length → (gapsAt l0 pre.length).map (fun k => (pre ++ l).getD k none) = atGaps l0 l
  | [], [], pre, _ => rfl
  | some x :: l0, y :: l, pre, h => by
    have := gapsAt_get l0 l (pre ++ [y]) (by simpa using h)
    simp only [List.length_append, List.length_singleton, List.append_assoc, List.singleton_append] at this
    simpa [gapsAt, atGaps] using this
  | none :: l0, y :: l, pre, h => by
    have := gapsAt_get l0 l (pre ++ [y]) (by simpa using h)
    simp only [List.length_append, List.length_singleton, List.append_assoc, List.singleton_append] at this
    simp only [gapsAt, Option.isNone_none, if_true, List.singleton_append, List.map_cons, atGaps, this]
    congr 1
    simp

/-- **C79 (reading back, one page).** With parameters of one page, the values taken back from the base model (after a constraint has moved its parameters) are those at the places of the NaNs, in order. -/
theorem C79_pack (p0 p : P α) (ps : List (P α)) (hw0 : WF [p0]) (hw : WF [p]) (hs : shape p = shape p0) :
    pack (tablePrep [p0] 0) (p :: ps) = .ok (atGaps (cells [p0]) (cells [p])) := by
  obtain ⟨t1, t2, t3⟩ := tablePrep_eq [p0] [] hw0
  simp only [List.length_nil, List.nil_append] at t1 t2 t3
  have hs' : [p].map shape = [p0].map shape := by simp [hs]
  obtain ⟨-, f2, f3⟩ := shape_facts hs' hw hw0
  have hlen := (shape_facts hs' hw hw0).1 1
  simp only [List.take_succ_cons, List.take_zero] at hlen
  have key : ∀ e ∈ tablePrep [p0] 0, getCell p e.1 e.2.1 = .ok ((cells [p]).getD (place [p] e) none) := by
    rintro ⟨row, col, page⟩ he
    have hi := (f3 _).2 (t1 _ he).2
    cases page with
    | succ k => simp [Inside] at hi
    | zero =>
      simp only [Inside, List.getElem?_cons_zero] at hi
      obtain ⟨-, -, -, -, -, e5⟩ := setCell_ok p row col none (hw p (by simp)) hi
      simp only
      rw [e5]
      congr 2
      · simp [cells, pageCells]
      · simp only [place, List.take_zero, List.getElem?_cons_zero]
        simp [cells]
  rw [pack_ok _ key]
  congr 1
  have := gapsAt_get (cells [p0]) (cells [p]) [] hlen.symm
  simp only [List.nil_append, List.length_nil] at this
  rw [← this]
  rw [show gapsAt (cells [p0]) 0 = (tablePrep [p0] 0).map (place [p0]) from t2.symm, List.map_map]
  apply List.map_congr_left
  intro e _
  simp only [Function.comp, f2]

theorem atGaps_fill : ∀ (l θ : List (Option α)), θ.length = gaps l → atGaps l (fillGaps l θ) = θ
  | [], θ, h => by simp [gaps] at h; simp [h, atGaps, fillGaps]
  | some x :: l, θ, h => by simpa [fillGaps, atGaps] using atGaps_fill l θ (by simpa [gaps] using h)
  | none :: l, t :: θ, h => by simpa [fillGaps, atGaps] using atGaps_fill l θ (by simpa [gaps] using h)
  | none :: l, [], h => by simp [gaps] at h

/-- With one page, filling and then reading back gives the parameters. -/
theorem C79_roundtrip (p0 : P α) (hw0 : WF [p0]) (θ : List (Option α)) (hθ : θ.length = gaps (cells [p0])) :
    ∃ q, unpack (tablePrep [p0] 0) θ [p0] = .ok [q] ∧ pack (tablePrep [p0] 0) [q] = .ok θ := by
  obtain ⟨qs, e1, e2, e3, e4⟩ := C79_fill [p0] [p0] hw0 hw0 rfl (agree_refl _) θ hθ
  match qs, e2, e3, e4 with
  | [q], e2, e3, e4 =>
    refine ⟨q, e1, ?_⟩
    rw [C79_pack p0 q [] hw0 e3 (by simpa using e2), e4, atGaps_fill _ _ hθ]
  | [], e2, _, _ => simp at e2
  | _ :: _ :: _, e2, _, _ => simp at e2

/-- With a NaN on the second page, the value is read back from the first. -/
theorem C79_second_page_refuted : let ps0 : List (P ℕ) := [⟨some [some 1], none⟩, ⟨some [none], none⟩]
    unpack (tablePrep ps0 0) [some 7] ps0 = .ok [⟨some [some 1], none⟩, ⟨some [some 7], none⟩] ∧
    pack (tablePrep ps0 0) [⟨some [some 1], none⟩, ⟨some [some 7], none⟩] = .ok [some 1] := ⟨rfl, rfl⟩

/-! A case that meets the hypotheses: a vector and a matrix, and a second page. -/

example : let ps0 : List (P ℕ) := [⟨some [some 3, none], some ⟨[[none, some 4], [some 5, none]], 2⟩⟩, ⟨none, some ⟨[[none]], 1⟩⟩]
    gaps (cells ps0) = 4 ∧ tablePrep ps0 0 = [(1, -1, 0), (0, 0, 0), (1, 1, 0), (0, 0, 1)] ∧
    unpack (tablePrep ps0 0) [some 10, some 11, some 12, some 13] ps0 = .ok [⟨some [some 3, some 10], some ⟨[[some 11, some 4], [some 5, some 12]], 2⟩⟩, ⟨none, some ⟨[[some 13]], 1⟩⟩] :=
  ⟨rfl, rfl, rfl⟩

end Apop.Fix
