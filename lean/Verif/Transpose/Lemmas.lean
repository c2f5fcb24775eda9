import Verif.Transpose.Model
import Verif.Data.CopyLemmas

namespace Apop.Transpose
variable {α β : Type}

/-- Cell (i,j) of a list of rows. -/
def cell? (g : List (List β)) (i j : Nat) : Option β := (g[i]?).bind (·[j]?)

/-- The transposed list of rows. -/
def trList (c : Nat) (l : List (List β)) : List (List β) :=
  (List.range c).map (fun j => l.filterMap (·[j]?))

theorem filterMap_col (l : List (List β)) (c j : Nat) (h : ∀ r ∈ l, r.length = c) (hj : j < c) :
    (l.filterMap (·[j]?)).length = l.length ∧ ∀ i, (l.filterMap (·[j]?))[i]? = cell? l i j := by
  induction l with
  | nil => simp [cell?]
  | cons r l ih =>
    obtain ⟨a, b⟩ := ih (fun x hx => h x (by simp [hx]))
    have hr : j < r.length := by rw [h r (by simp)]; exact hj
    simp only [List.filterMap_cons, List.getElem?_eq_getElem hr]
    refine ⟨by simp [a], ?_⟩
    intro i
    cases i with
    | zero => simp [cell?, List.getElem?_eq_getElem hr]
    | succ i => simpa [cell?] using b i

theorem cell?_none (l : List (List β)) (c i j : Nat) (h : ∀ r ∈ l, r.length = c) (hj : c ≤ j) : cell? l i j = none := by
  unfold cell?
  cases hl : l[i]? with
  | none => rfl
  | some r => simp [h r (List.mem_of_getElem? hl), hj]

theorem trList_spec (c : Nat) (l : List (List β)) (h : ∀ r ∈ l, r.length = c) :
    (trList c l).length = c ∧ (∀ r ∈ trList c l, r.length = l.length) ∧
    ∀ i j, cell? (trList c l) j i = cell? l i j := by
  unfold trList
  refine ⟨by simp, ?_, ?_⟩
  · intro r hr
    simp only [List.mem_map, List.mem_range] at hr
    obtain ⟨j, hj, rfl⟩ := hr
    exact (filterMap_col l c j h hj).1
  · intro i j
    by_cases hj : j < c
    · conv => lhs; unfold cell?
      rw [List.getElem?_map, List.getElem?_range hj]
      exact (filterMap_col l c j h hj).2 i
    · rw [cell?_none l c i j h (by omega)]
      unfold cell?
      rw [List.getElem?_eq_none (by simp; omega)]; rfl

/-- A list of rows of known width is determined by its cells and its length. -/
theorem rows_ext (a b : List (List β)) (c : Nat) (ha : ∀ r ∈ a, r.length = c) (hb : ∀ r ∈ b, r.length = c)
    (hl : a.length = b.length) (h : ∀ i j, i < a.length → j < c → cell? a i j = cell? b i j) : a = b := by
  apply List.ext_getElem hl
  intro i h1 h2
  apply List.ext_getElem (by rw [ha _ (List.getElem_mem h1), hb _ (List.getElem_mem h2)])
  intro j h3 h4
  have := h i j h1 (by rw [← ha _ (List.getElem_mem h1)]; exact h3)
  simpa [cell?, List.getElem?_eq_getElem h1, List.getElem?_eq_getElem h2, List.getElem?_eq_getElem h3,
    List.getElem?_eq_getElem h4] using this

theorem trList_trList (c : Nat) (l : List (List β)) (h : ∀ r ∈ l, r.length = c) :
    trList l.length (trList c l) = l := by
  obtain ⟨a1, a2, a3⟩ := trList_spec c l h
  obtain ⟨b1, b2, b3⟩ := trList_spec l.length (trList c l) a2
  apply rows_ext _ _ c (by rw [a1] at b2; exact b2) h b1
  intro i j _ _
  rw [b3, a3]

/-! ### reading and writing cells -/

theorem rdCell_ok {g : List (List CStr)} {i j : Nat} {s : CStr} (h : cell? g i j = some s) : rdCell g i j = .ok s := by
  unfold cell? at h
  unfold rdCell
  cases hr : g[i]? with
  | none => simp [hr] at h
  | some r =>
    simp [hr] at h
    simp only [rd, hr, h, Res.bind_ok]

/-- Row lengths. -/
def shape (g : List (List β)) : List Nat := g.map List.length

theorem cell?_isSome (g : List (List β)) (i j : Nat) : (cell? g i j).isSome ↔ ∃ k, (shape g)[i]? = some k ∧ j < k := by
  unfold cell? shape
  cases h : g[i]? with
  | none => simp [h]
  | some r => simp [h]

theorem wrText_ok {g : List (List CStr)} {i j : Nat} (h : (cell? g i j).isSome) (s : CStr) :
    ∃ g', Page.wrText g i j s = .ok g' ∧ shape g' = shape g ∧
      ∀ a b, cell? g' a b = if a = i ∧ b = j then some s else cell? g a b := by
  unfold cell? at h
  cases hr : g[i]? with
  | none => simp [hr] at h
  | some r =>
    obtain ⟨hi, rfl⟩ := List.getElem?_eq_some_iff.1 hr
    have hj : j < g[i].length := by simpa [hr] using h
    refine ⟨g.set i (g[i].set j s), ?_, ?_, ?_⟩
    · simp only [Page.wrText, rd_of_lt hi, Res.bind_ok, wr_of_lt hj, wr_of_lt hi]
    · unfold shape
      rw [List.map_set, List.length_set]
      apply List.ext_getElem (by simp)
      intro k h1 h2
      rw [List.getElem_set]
      split
      · next e => subst e; simp
      · rfl
    · intro a b
      unfold cell?
      rw [List.getElem?_set]
      by_cases ha : i = a
      · subst ha
        simp only [hi, if_true, Option.bind_some, List.getElem?_set, true_and, hj]
        by_cases hb : j = b
        · subst hb; simp
        · rw [if_neg hb, if_neg (fun h => hb h.symm), hr]; rfl
      · rw [if_neg ha, if_neg (fun h => ha h.1.symm)]

theorem swapCell_ok {g : List (List CStr)} {i j : Nat} (h1 : (cell? g i j).isSome) (h2 : (cell? g j i).isSome) :
    ∃ g', swapCell g i j = .ok g' ∧ shape g' = shape g ∧
      ∀ a b, cell? g' a b = if (a = i ∧ b = j) ∨ (a = j ∧ b = i) then cell? g b a else cell? g a b := by
  obtain ⟨x, hx⟩ := Option.isSome_iff_exists.1 h1
  obtain ⟨y, hy⟩ := Option.isSome_iff_exists.1 h2
  obtain ⟨g1, e1, s1, c1⟩ := wrText_ok h1 y
  have h3 : (cell? g1 j i).isSome := by rw [cell?_isSome, s1, ← cell?_isSome]; exact h2
  obtain ⟨g2, e2, s2, c2⟩ := wrText_ok h3 x
  refine ⟨g2, ?_, s2.trans s1, ?_⟩
  · simp only [swapCell, rdCell_ok hx, rdCell_ok hy, Res.bind_ok, e1, e2]
  · intro a b
    rw [c2, c1]
    by_cases ha : a = j ∧ b = i
    · rw [if_pos ha, if_pos (Or.inr ha), ha.1, ha.2, hx]
    · rw [if_neg ha]
      by_cases hb : a = i ∧ b = j
      · rw [if_pos hb, if_pos (Or.inl hb), hb.1, hb.2, hy]
      · rw [if_neg hb, if_neg (by rintro (h | h); exact hb h; exact ha h)]

theorem swapRow_ok (sq i : Nat) : ∀ (k j : Nat) (g : List (List CStr)), i < j → j + k = sq →
    (∀ a b, a < sq → b < sq → (cell? g a b).isSome) →
    ∃ g', swapRow i j k g = .ok g' ∧ shape g' = shape g ∧
      ∀ a b, cell? g' a b =
        if (a = i ∧ j ≤ b ∧ b < sq) ∨ (b = i ∧ j ≤ a ∧ a < sq) then cell? g b a else cell? g a b := by
  intro k
  induction k with
  | zero =>
    intro j g hij hk hs
    refine ⟨g, rfl, rfl, ?_⟩
    intro a b
    rw [if_neg (by omega)]
  | succ k ih =>
    intro j g hij hk hs
    obtain ⟨g1, e1, s1, c1⟩ := swapCell_ok (hs i j (by omega) (by omega)) (hs j i (by omega) (by omega))
    obtain ⟨g2, e2, s2, c2⟩ := ih (j + 1) g1 (by omega) (by omega) (by
      intro a b ha hb; rw [cell?_isSome, s1, ← cell?_isSome]; exact hs a b ha hb)
    refine ⟨g2, by simp only [swapRow, e1, Res.bind_ok, e2], s2.trans s1, ?_⟩
    intro a b
    rw [c2]
    simp only [c1]
    split <;> split <;> split <;> first | rfl | (exfalso; omega)

theorem swapSquare_ok (sq : Nat) : ∀ (k i : Nat) (g : List (List CStr)), i + k = sq →
    (∀ a b, a < sq → b < sq → (cell? g a b).isSome) →
    ∃ g', swapSquare sq i k g = .ok g' ∧ shape g' = shape g ∧
      ∀ a b, cell? g' a b = if i ≤ a ∧ i ≤ b ∧ a < sq ∧ b < sq then cell? g b a else cell? g a b := by
  intro k
  induction k with
  | zero =>
    intro i g hk hs
    exact ⟨g, rfl, rfl, fun a b => by rw [if_neg (by omega)]⟩
  | succ k ih =>
    intro i g hk hs
    obtain ⟨g1, e1, s1, c1⟩ := swapRow_ok sq i (sq - (i + 1)) (i + 1) g (by omega) (by omega) hs
    obtain ⟨g2, e2, s2, c2⟩ := ih (i + 1) g1 (by omega) (by
      intro a b ha hb; rw [cell?_isSome, s1, ← cell?_isSome]; exact hs a b ha hb)
    refine ⟨g2, by simp only [swapSquare, e1, Res.bind_ok, e2], s2.trans s1, ?_⟩
    intro a b
    rw [c2]
    simp only [c1]
    by_cases hab : a = b
    · subst hab; simp
    · split <;> split <;> split <;> first | rfl | (exfalso; omega)

theorem colCells_ok (g : List (List CStr)) (i : Nat) (x : Nat → CStr) : ∀ (k j : Nat),
    (∀ t, t < k → cell? g (j + t) i = some (x (j + t))) →
    colCells g i j k = .ok ((List.range k).map (fun t => x (j + t))) := by
  intro k
  induction k with
  | zero => intro j _; rfl
  | succ k ih =>
    intro j h
    have h0 := h 0 (by omega)
    simp only [Nat.add_zero] at h0
    simp only [colCells, rdCell_ok h0, Res.bind_ok]
    rw [ih (j + 1) (by intro t ht; have := h (t + 1) (by omega); rwa [show j + (t + 1) = j + 1 + t by omega] at this)]
    simp only [Res.bind_ok, List.range_succ_eq_map, List.map_cons, List.map_map, Nat.add_zero]
    congr 2
    apply List.map_congr_left
    intro t _
    simp only [Function.comp]
    congr 1; omega

/-- The cells of the original grid, as a total function. -/
def cellD (g : List (List CStr)) (i j : Nat) : CStr := (cell? g i j).getD []

theorem extendRows_ok (g0 : List (List CStr)) (R C : Nat) (hC : C ≤ R)
    (h0 : ∀ a b, a < R → b < C → (cell? g0 a b).isSome) : ∀ (k i : Nat) (g : List (List CStr)),
    i + k = C → g.length = R → (∀ a, i ≤ a → g[a]? = g0[a]?) →
    ∃ g', extendRows R C i k g = .ok g' ∧ g'.length = R ∧ ∀ a, g'[a]? =
      if i ≤ a ∧ a < C then (g0[a]?).map (· ++ (List.range (R - C)).map (fun t => cellD g0 (C + t) a)) else g[a]? := by
  intro k
  induction k with
  | zero =>
    intro i g hk hl hg
    exact ⟨g, rfl, hl, fun a => by rw [if_neg (by omega)]⟩
  | succ k ih =>
    intro i g hk hl hg
    have hcc := colCells_ok g i (fun j => cellD g0 j i) (R - C) C (by
      intro t ht
      have := h0 (C + t) i (by omega) (by omega)
      obtain ⟨x, hx⟩ := Option.isSome_iff_exists.1 this
      have e : cell? g (C + t) i = cell? g0 (C + t) i := by unfold cell?; rw [hg _ (by omega)]
      rw [e, cellD, hx]; rfl)
    have hi : i < g.length := by omega
    obtain ⟨g', e1, e2, e3⟩ := ih (i + 1) (g.set i (g[i] ++ (List.range (R - C)).map (fun t => cellD g0 (C + t) i)))
      (by omega) (by simpa using hl) (by
        intro a ha
        rw [List.getElem?_set_ne (by omega)]; exact hg a (by omega))
    refine ⟨g', ?_, e2, ?_⟩
    · simp only [extendRows, hcc, Res.bind_ok, rd_of_lt hi, wr_of_lt hi, e1]
    · intro a
      rw [e3]
      by_cases ha : a = i
      · subst ha
        rw [if_neg (by omega), List.getElem?_set_self hi, if_pos (by omega), ← hg a (Nat.le_refl _),
          List.getElem?_eq_getElem hi]; rfl
      · rw [List.getElem?_set_ne (by omega)]
        by_cases hb : i + 1 ≤ a ∧ a < C
        · rw [if_pos hb, if_pos (by omega)]
        · rw [if_neg hb, if_neg (by omega)]

theorem addRows_ok (g0 : List (List CStr)) (R : Nat) (hR : g0.length = R) : ∀ (k i : Nat) (new : List (List CStr)),
    (∀ a b, a < R → b < i + k → (cell? g0 a b).isSome) →
    addRows R i k (g0 ++ new) = .ok (g0 ++ new ++
      (List.range k).map (fun t => (List.range R).map (fun j => cellD g0 j (i + t)))) := by
  intro k
  induction k with
  | zero => intro i new _; simp [addRows]
  | succ k ih =>
    intro i new h0
    have hcc := colCells_ok (g0 ++ new) i (fun j => cellD g0 j i) R 0 (by
      intro t ht
      rw [Nat.zero_add]
      have := h0 t i (by omega) (by omega)
      obtain ⟨x, hx⟩ := Option.isSome_iff_exists.1 this
      have e : cell? (g0 ++ new) t i = cell? g0 t i := by
        unfold cell?; rw [List.getElem?_append_left (by omega)]
      rw [e, cellD, hx]; rfl)
    simp only [addRows, hcc, Res.bind_ok]
    rw [List.append_assoc, ih (i + 1) _ (by intro a b ha hb; exact h0 a b ha (by omega))]
    rw [List.range_succ_eq_map]
    simp only [List.map_cons, List.map_map, Nat.zero_add, List.append_assoc, Nat.add_zero,
      List.cons_append, List.nil_append]
    congr 4
    apply List.map_congr_left
    intro t _
    simp only [Function.comp]
    apply List.map_congr_left
    intro j _
    congr 1; omega

theorem textInPlace_eq (p : Page α) (hp : p.TextWF) (h1 : p.textsize.1 ≠ 0) (h2 : p.textsize.2 ≠ 0) :
    textInPlace p = .ok { p with text := trList p.textsize.2 p.text, textsize := (p.textsize.2, p.textsize.1) } := by
  obtain ⟨hl, hr⟩ := hp
  obtain ⟨t1, t2, t3⟩ := trList_spec p.textsize.2 p.text hr
  have h0 : ∀ a b, a < p.textsize.1 → b < p.textsize.2 → (cell? p.text a b).isSome := by
    intro a b ha hb
    have ha' : a < p.text.length := by omega
    have hb' : b < p.text[a].length := by rw [hr _ (List.getElem_mem ha')]; exact hb
    simp [cell?, List.getElem?_eq_getElem ha', List.getElem?_eq_getElem hb']
  have cd : ∀ a b, a < p.textsize.1 → b < p.textsize.2 → some (cellD p.text a b) = cell? p.text a b := by
    intro a b ha hb
    obtain ⟨x, hx⟩ := Option.isSome_iff_exists.1 (h0 a b ha hb)
    simp [cellD, hx]
  unfold textInPlace
  simp only
  generalize hR : p.textsize.1 = R at *
  generalize hC : p.textsize.2 = C at *
  -- the grid before the swaps: `C × R` cells are there; outside the square they are transposed already
  suffices H : ∃ g, ((do
      let g ← (if R > C then extendRows R C 0 C p.text else .ok p.text : Res (List (List CStr)))
      (if C > R then addRows R R (C - R) g else .ok g : Res (List (List CStr)))) = .ok g) ∧
      C ≤ g.length ∧ (∀ a, a < C → ∃ r, g[a]? = some r ∧ R ≤ r.length) ∧
      (∀ a b, a < C → b < R → cell? g a b = if a < min R C ∧ b < min R C then cell? p.text a b else cell? p.text b a) by
    obtain ⟨g, e, hgl, hgr, hgc⟩ := H
    obtain ⟨g', s1, s2, s3⟩ := swapSquare_ok (min R C) (min R C) 0 g (by omega) (by
      intro a b ha hb
      obtain ⟨r, hr1, hr2⟩ := hgr a (by omega)
      have : b < r.length := by omega
      simp [cell?, hr1, this])
    rw [Res.bind_eq_ok] at e
    obtain ⟨ga, e1, e2⟩ := e
    simp only [e1, Res.bind_ok, e2, s1]
    congr 1
    have hlen : g'.length = g.length := by
      have := congrArg List.length s2
      simpa [shape] using this
    have hrow : ∀ a, a < C → ∃ r, g'[a]? = some r ∧ R ≤ r.length := by
      intro a ha
      obtain ⟨r, hr1, hr2⟩ := hgr a ha
      have h3 : (shape g')[a]? = some r.length := by rw [s2]; simp [shape, hr1]
      simp only [shape, List.getElem?_map, Option.map_eq_some_iff] at h3
      obtain ⟨r', hr', hrl⟩ := h3
      exact ⟨r', hr', by omega⟩
    have : (g'.take C).map (·.take R) = trList C p.text := by
      apply rows_ext _ _ R
      · intro r hr'
        simp only [List.mem_map] at hr'
        obtain ⟨r0, hr0, rfl⟩ := hr'
        obtain ⟨a, ha, rfl⟩ := List.getElem_of_mem hr0
        simp only [List.length_take] at ha
        obtain ⟨r, hr1, hr2⟩ := hrow a (by omega)
        rw [List.getElem_take]
        rw [List.getElem?_eq_getElem (by omega)] at hr1
        simp only [Option.some.injEq] at hr1
        simp [hr1]; omega
      · intro r hr'; rw [t2 r hr', hl]
      · rw [t1]; simp; omega
      · intro a b ha hb
        simp only [List.length_map, List.length_take] at ha
        have hcut : cell? ((g'.take C).map (·.take R)) a b = cell? g' a b := by
          obtain ⟨r, hr1, hr2⟩ := hrow a (by omega)
          simp [cell?, List.getElem?_take, hr1, show a < C by omega, hb]
        rw [hcut, s3, t3]
        by_cases hsq : a < min R C ∧ b < min R C
        · rw [if_pos ⟨by omega, by omega, hsq.1, hsq.2⟩, hgc b a (by omega) (by omega), if_pos ⟨hsq.2, hsq.1⟩]
        · rw [if_neg (by omega), hgc a b (by omega) hb, if_neg hsq]
    rw [this]
  by_cases hRC : R > C
  · rw [if_pos hRC]
    obtain ⟨g', e1, e2, e3⟩ := extendRows_ok p.text R C (by omega) h0 C 0 p.text (by omega) (by omega) (by intros; rfl)
    refine ⟨g', by rw [e1]; simp only [Res.bind_ok]; rw [if_neg (by omega)], by omega, ?_, ?_⟩
    · intro a ha
      have ha' : a < p.text.length := by omega
      rw [e3, if_pos ⟨by omega, ha⟩, List.getElem?_eq_getElem ha']
      exact ⟨_, rfl, by simp [hr _ (List.getElem_mem ha')]; omega⟩
    · intro a b ha hb
      have ha' : a < p.text.length := by omega
      have hal : p.text[a].length = C := hr _ (List.getElem_mem ha')
      conv => lhs; unfold cell?
      rw [e3, if_pos ⟨by omega, ha⟩, List.getElem?_eq_getElem ha']
      simp only [Option.map_some, Option.bind_some]
      by_cases hbc : b < C
      · rw [if_pos ⟨by omega, by omega⟩, List.getElem?_append_left (by omega)]
        simp [cell?, List.getElem?_eq_getElem ha']
      · rw [if_neg (by omega), List.getElem?_append_right (by omega), List.getElem?_map,
          List.getElem?_range (by omega)]
        simp only [Option.map_some, hal]
        rw [show C + (b - C) = b by omega]
        exact cd b a hb ha
  · rw [if_neg hRC]
    simp only [Res.bind_ok]
    by_cases hCR : C > R
    · rw [if_pos hCR]
      have ha := addRows_ok p.text R hl (C - R) R [] (by intro a b ha hb; exact h0 a b ha (by omega))
      rw [List.append_nil] at ha
      refine ⟨_, ha, by simp; omega, ?_, ?_⟩
      · intro a haC
        by_cases haR : a < R
        · have ha' : a < p.text.length := by omega
          rw [List.getElem?_append_left ha', List.getElem?_eq_getElem ha']
          exact ⟨_, rfl, by rw [hr _ (List.getElem_mem ha')]; omega⟩
        · rw [List.getElem?_append_right (by omega), List.getElem?_map, List.getElem?_range (by omega)]
          exact ⟨_, rfl, by simp⟩
      · intro a b haC hbR
        conv => lhs; unfold cell?
        by_cases haR : a < R
        · have ha' : a < p.text.length := by omega
          rw [List.getElem?_append_left ha', if_pos ⟨by omega, by omega⟩]; rfl
        · rw [if_neg (by omega), List.getElem?_append_right (by omega), List.getElem?_map,
            List.getElem?_range (by omega)]
          simp only [Option.map_some, Option.bind_some, List.getElem?_map, List.getElem?_range hbR, hl]
          rw [show R + (a - R) = a by omega]
          exact cd b a hbR haC
    · rw [if_neg hCR]
      have : R = C := by omega
      subst this
      refine ⟨p.text, rfl, by omega, ?_, ?_⟩
      · intro a haC
        have ha' : a < p.text.length := by omega
        exact ⟨_, List.getElem?_eq_getElem ha', by rw [hr _ (List.getElem_mem ha')]; omega⟩
      · intro a b ha hb
        rw [if_pos ⟨by omega, by omega⟩]

end Apop.Transpose
