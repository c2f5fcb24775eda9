import Verif.Conv.Props

/-! # C36 (filling) and C37 (crosstabs) -/

namespace Apop.Conv
variable {α : Type}
open Access (Cell content denotes setBody)

/-! ## C36 -/

/-- The cell in row `i`, column `j` (-1: the vector). -/
def cellAt (i : Nat) (j : Int) : Cell := if j = -1 then .vec i else .mat i j.toNat

/-- Row `i` of the page has the columns `start .. fin-1`, all of them existing cells, and (row, col) denotes them. -/
def RowOk (p : Page α) (i : Nat) (start fin : Int) : Prop :=
  ∀ j, start ≤ j → j < fin → denotes p i j = some (cellAt i j) ∧ (content p (cellAt i j)).isSome

theorem cellAt_inj {i i' : Nat} {j j' : Int} (hj : -1 ≤ j) (hj' : -1 ≤ j') (h : cellAt i j = cellAt i' j') : i = i' ∧ j = j' := by
  unfold cellAt at h
  by_cases a : j = -1 <;> by_cases b : j' = -1 <;> simp [a, b] at h
  · exact ⟨h, by omega⟩
  · exact ⟨h.1, by omega⟩

/-- The page parts that filling does not touch. -/
def SameRest (p q : Page α) : Prop :=
  p.weights = q.weights ∧ p.text = q.text ∧ p.names = q.names ∧ p.error = q.error

/-- `denotes` depends on which parts exist only; `setBody` keeps that. -/
theorem setBody_parts (p : Page α) (i : Nat) (j : Int) (x : α) :
    (setBody p i j x).1.matrix.isSome = p.matrix.isSome ∧ (setBody p i j x).1.vector.isSome = p.vector.isSome := by
  unfold setBody
  split
  · split
    · simp
    · rename_i v hv; split <;> simp [hv]
  · split
    · simp
    · rename_i m hm
      split
      · simp
      · split <;> simp [hm]

theorem denotes_congr {p q : Page α} (h1 : p.matrix.isSome = q.matrix.isSome) (h2 : p.vector.isSome = q.vector.isSome) (i : Nat) (j : Int) :
    denotes p i j = denotes q i j := by
  unfold denotes
  have e1 : (p.matrix = none) ↔ (q.matrix = none) := by
    cases hp : p.matrix <;> cases hq : q.matrix <;> simp [hp, hq] at h1 ⊢
  have e2 : (p.vector ≠ none) ↔ (q.vector ≠ none) := by
    cases hp : p.vector <;> cases hq : q.vector <;> simp [hp, hq] at h2 ⊢
  simp only [e1, e2]

structure Step (p q : Page α) : Prop where
  mat : p.matrix.isSome = q.matrix.isSome
  vec : p.vector.isSome = q.vector.isSome
  some' : ∀ c, (content p c).isSome = (content q c).isSome
  rest : SameRest p q

theorem Step.refl (p : Page α) : Step p p := ⟨rfl, rfl, fun _ => rfl, rfl, rfl, rfl, rfl⟩
theorem Step.trans {p q r : Page α} (h : Step p q) (h' : Step q r) : Step p r :=
  ⟨h.mat.trans h'.mat, h.vec.trans h'.vec, fun c => (h.some' c).trans (h'.some' c),
    h.rest.1.trans h'.rest.1, h.rest.2.1.trans h'.rest.2.1, h.rest.2.2.1.trans h'.rest.2.2.1, h.rest.2.2.2.trans h'.rest.2.2.2⟩

theorem RowOk.step {p q : Page α} (h : Step q p) {i : Nat} {s f : Int} (hr : RowOk p i s f) : RowOk q i s f := by
  intro j h1 h2
  obtain ⟨a, b⟩ := hr j h1 h2
  exact ⟨by rw [denotes_congr h.mat h.vec]; exact a, by rw [h.some']; exact b⟩

theorem set_step {p : Page α} {i : Nat} {j : Int} (x : α) (h : denotes p i j = some (cellAt i j)) (hs : (content p (cellAt i j)).isSome) :
    Step (setBody p i j x).1 p ∧ ∀ c, content (setBody p i j x).1 c = if c = cellAt i j then some x else content p c := by
  obtain ⟨old, ho⟩ := Option.isSome_iff_exists.1 hs
  obtain ⟨p', a, b, -, c, d, e, f⟩ := Access.C11_set_body p i j x _ old h ho
  obtain ⟨m1, m2⟩ := setBody_parts p i j x
  rw [a] at m1 m2 ⊢
  refine ⟨⟨m1, m2, ?_, c, d, e, f⟩, b⟩
  intro c'
  rw [b]
  split
  · rename_i hc; subst hc; rw [ho]; rfl
  · rfl

theorem fillRow_eq (ap : List α) (i : Nat) : ∀ (n : Nat) (j : Int) (k : Nat) (p : Page α), -1 ≤ j → RowOk p i j (j + n) → k + n ≤ ap.length →
    ∃ q, fillRow ap i n j k p = .ok (q, k + n) ∧ Step q p ∧
      (∀ t : Nat, t < n → content q (cellAt i (j + t)) = ap[k + t]?) ∧
      ∀ c, (∀ t : Nat, t < n → c ≠ cellAt i (j + t)) → content q c = content p c
  | 0, j, k, p, _, _, _ => ⟨p, rfl, Step.refl p, by intro t ht; omega, fun _ _ => rfl⟩
  | n + 1, j, k, p, hj, hr, hl => by
    obtain ⟨d1, d2⟩ := hr j (by omega) (by omega)
    obtain ⟨s1, s2⟩ := set_step (ap[k]'(by omega)) d1 d2
    obtain ⟨q, a, b, c, d⟩ := fillRow_eq ap i n (j + 1) (k + 1) (setBody p i j (ap[k]'(by omega))).1 (by omega)
      (by intro j' h1 h2; exact hr.step s1 j' (by omega) (by omega)) (by omega)
    refine ⟨q, ?_, b.trans s1, ?_, ?_⟩
    · rw [fillRow, rd_of_lt (show k < ap.length by omega)]
      simp only [Res.bind_ok]
      rw [a]
      congr 2; omega
    · intro t ht
      cases t with
      | zero =>
        have h0 : (j + ((0 : Nat) : Int)) = j := by omega
        rw [h0, d, s2, if_pos rfl]
        · simp [show k < ap.length by omega]
        · intro t' _ heq
          have := (cellAt_inj hj (by omega) heq).2
          omega
      | succ t =>
        have h0 : (j + ((t + 1 : Nat) : Int)) = (j + 1) + (t : Int) := by omega
        rw [h0, c t (by omega), show k + 1 + t = k + (t + 1) by omega]
    · intro cl hc
      rw [d, s2, if_neg]
      · have := hc 0 (by omega); simpa using this
      · intro t ht
        have h0 : (j + 1 + (t : Int)) = j + ((t + 1 : Nat) : Int) := by omega
        rw [h0]; exact hc (t + 1) (by omega)

theorem fillRows_eq (ap : List α) (start : Int) (hs : -1 ≤ start) (w : Nat) : ∀ (n i k : Nat) (p : Page α),
    (∀ i', i ≤ i' → i' < i + n → RowOk p i' start (start + w)) → k + n * w ≤ ap.length →
    ∃ q, fillRows ap start w n i k p = .ok (q, k + n * w) ∧ Step q p ∧
      (∀ r t : Nat, r < n → t < w → content q (cellAt (i + r) (start + t)) = ap[k + r * w + t]?) ∧
      ∀ c, (∀ r t : Nat, r < n → t < w → c ≠ cellAt (i + r) (start + t)) → content q c = content p c
  | 0, i, k, p, _, _ => ⟨p, by simp [fillRows], Step.refl p, by intro r t hr; omega, fun _ _ => rfl⟩
  | n + 1, i, k, p, hr, hl => by
    have hmul : (n + 1) * w = n * w + w := Nat.succ_mul n w
    obtain ⟨q1, a1, b1, c1, d1⟩ := fillRow_eq ap i w start k p hs (hr i (by omega) (by omega)) (by omega)
    obtain ⟨q, a, b, c, d⟩ := fillRows_eq ap start hs w n (i + 1) (k + w) q1
      (fun i' h1 h2 => (hr i' (by omega) (by omega)).step b1) (by omega)
    refine ⟨q, ?_, b.trans b1, ?_, ?_⟩
    · rw [fillRows, a1]
      simp only [Res.bind_ok]
      rw [a]; congr 2; omega
    · intro r t hr' ht
      cases r with
      | zero =>
        rw [d]
        · simpa using c1 t ht
        · intro r' t' _ _ heq
          have := (cellAt_inj (by omega) (by omega) heq).1
          omega
      | succ r =>
        have e1 : (r + 1) * w = r * w + w := Nat.succ_mul r w
        have := c r t (by omega) ht
        rw [show i + (r + 1) = i + 1 + r by omega, this]
        congr 1; omega
    · intro cl hc
      rw [d, d1]
      · intro t ht; have := hc 0 t (by omega) ht; simpa using this
      · intro r t hr' ht
        have := hc (r + 1) t (by omega) ht
        rwa [show i + (r + 1) = i + 1 + r by omega] at this

/-- The data set is one `apop_data_fill` is documented for: a rectangular matrix, and a vector, if both are there, with
as many elements as the matrix has rows. -/
structure Fillable (p : Page α) : Prop where
  rect : ∀ m, p.matrix = some m → m.WF
  same : ∀ m v, p.matrix = some m → p.vector = some v → v.length = m.size1

/-- Number of rows to be filled. -/
def height (p : Page α) : Nat := match p.matrix with
  | some m => m.size1
  | none => (p.vector.map List.length).getD 0

/-- Values per row: one for the vector, if there is one, and the matrix columns. -/
def width (p : Page α) : Nat := (if p.vector.isSome then 1 else 0) + (p.matrix.map (·.cols)).getD 0

theorem fillable_rowOk {p : Page α} (h : Fillable p) (i : Nat) (hi : i < height p) :
    RowOk p i (if p.vector.isSome then -1 else 0) ((p.matrix.map (·.cols)).getD 0 : Nat) := by
  intro j h1 h2
  unfold height at hi
  by_cases hj : j = -1
  · subst hj
    cases hv : p.vector with
    | none => simp [hv] at h1
    | some v =>
      refine ⟨by simp [denotes, cellAt], ?_⟩
      have : i < v.length := by
        cases hm : p.matrix with
        | none => simpa [hm, hv] using hi
        | some m => have := h.same m v hm hv; simp [hm] at hi; omega
      simp [cellAt, content, hv, this]
  · have hj0 : 0 ≤ j := by split at h1 <;> omega
    cases hm : p.matrix with
    | none => simp [hm] at h2; omega
    | some m =>
      simp only [hm, Option.map_some, Option.getD_some] at h2
      simp only [hm] at hi
      have hi' : i < m.rows.length := hi
      have hw := h.rect m hm (m.rows[i]) (List.getElem_mem _)
      refine ⟨by simp [denotes, cellAt, hj, hm, hj0], ?_⟩
      have : j.toNat < m.rows[i].length := by omega
      simp [cellAt, hj, content, hm, Mat.get?, hi', this]

/-- **C36, numbers**: with at least as many values as cells, exactly that many are read; value number `i*w` goes to
vector element `i` and the following ones to row `i` of the matrix (`w` values per row); nothing else changes. -/
theorem C36_fill (p : Page α) (h : Fillable p) (ap : List α) (hl : height p * width p ≤ ap.length) :
    ∃ q, fill ap p = .ok (q, height p * width p) ∧ SameRest q p ∧
      (∀ v, p.vector = some v → ∀ i < height p, content q (.vec i) = ap[i * width p]?) ∧
      (∀ m, p.matrix = some m → ∀ i j, i < m.size1 → j < m.cols →
        content q (.mat i j) = ap[i * width p + (if p.vector.isSome then 1 else 0) + j]?) ∧
      (∀ c, (content q c).isSome = (content p c).isSome) := by
  have hst : -1 ≤ (if p.vector.isSome then (-1 : Int) else 0) := by split <;> omega
  have hw : (((p.matrix.map (·.cols)).getD 0 : Nat) - (if p.vector.isSome then (-1 : Int) else 0)).toNat = width p := by
    unfold width; split <;> omega
  have hfin : (if p.vector.isSome then (-1 : Int) else 0) + (width p : Int) = ((p.matrix.map (·.cols)).getD 0 : Nat) := by
    unfold width; split <;> omega
  obtain ⟨q, a, b, c, d⟩ := fillRows_eq ap _ hst (width p) (height p) 0 0 p
    (fun i' _ h2 => by rw [hfin]; exact fillable_rowOk h i' (by omega)) (by omega)
  have hfill : fill ap p = .ok (q, height p * width p) := by
    unfold fill
    simp only [hw]
    rw [Nat.zero_add] at a
    exact a
  refine ⟨q, hfill, b.rest, ?_, ?_, b.some'⟩
  · intro v hv i hi
    have hw0 : 0 < width p := by simp [width, hv]; omega
    have := c i 0 hi hw0
    simpa [hv, cellAt] using this
  · intro m hm i j hi hj
    have hh : height p = m.size1 := by simp [height, hm]
    have hwm : width p = (if p.vector.isSome then 1 else 0) + m.cols := by simp [width, hm]
    have := c i ((if p.vector.isSome then 1 else 0) + j) (by omega) (by omega)
    have hj2 : ((if p.vector.isSome then (-1 : Int) else 0) + (((if p.vector.isSome then 1 else 0) + j : Nat) : Int)) = j := by
      split <;> omega
    rw [hj2] at this
    have hne : (j : Int) ≠ -1 := by omega
    simp only [cellAt, hne, if_false, Int.toNat_natCast, Nat.zero_add] at this
    rw [this]
    congr 1; omega

/-- With fewer values than cells, memory past the list is read. -/
theorem C36_too_few_ub (p : Page α) (ap : List α) (hl : ap.length < height p * width p) : fill ap p = .ub := by
  -- compare with a longer list that agrees with `ap` on its length: the run reads index `ap.length`
  have key : ∀ (ap : List α) (w : Nat) (start : Int) (n i k : Nat) (p : Page α) q k', fillRows ap start w n i k p = .ok (q, k') → k' = k + n * w ∧ (0 < n * w → k' ≤ ap.length) := by
    intro ap w start n
    have row : ∀ (i w : Nat) (j : Int) (k : Nat) (p q : Page α) k', fillRow ap i w j k p = .ok (q, k') → k' = k + w ∧ (0 < w → k' ≤ ap.length) := by
      intro i w
      induction w with
      | zero => intro j k p q k' h; simp [fillRow] at h; omega
      | succ w ih =>
        intro j k p q k' h
        rw [fillRow] at h
        obtain ⟨x, hx, h⟩ := Res.bind_eq_ok.1 h
        obtain ⟨e1, e2⟩ := ih _ _ _ _ _ h
        have : k < ap.length := (List.getElem?_eq_some_iff.1 (rd_eq_ok.1 hx)).1
        refine ⟨by omega, fun _ => ?_⟩
        by_cases hw : 0 < w
        · exact e2 hw
        · omega
    induction n with
    | zero => intro i k p q k' h; simp [fillRows] at h; simp [h.2]
    | succ n ih =>
      intro i k p q k' h
      rw [fillRows] at h
      obtain ⟨⟨p1, k1⟩, h1, h⟩ := Res.bind_eq_ok.1 h
      obtain ⟨r1, r2⟩ := row _ _ _ _ _ _ _ h1
      obtain ⟨e1, e2⟩ := ih _ _ _ _ _ h
      have hmul : (n + 1) * w = n * w + w := Nat.succ_mul n w
      refine ⟨by omega, fun hp => ?_⟩
      by_cases hz : 0 < n * w
      · exact e2 hz
      · have := r2 (by omega)
        omega
  have hw : (((p.matrix.map (·.cols)).getD 0 : Nat) - (if p.vector.isSome then (-1 : Int) else 0)).toNat = width p := by
    unfold width; split <;> omega
  cases hf : fill ap p with
  | ub => rfl
  | ok y =>
    exfalso
    obtain ⟨q, k'⟩ := y
    unfold fill at hf
    simp only [hw] at hf
    obtain ⟨e1, e2⟩ := key ap (width p) _ (height p) 0 0 p q k' hf
    have := e2 (by omega)
    omega

example : fill [1, 2, 3, 4, 5, 6] ({ vector := some [0, 0], matrix := some ⟨[[0, 0], [0, 0]], 2⟩ } : Page Nat) =
    .ok ({ vector := some [1, 4], matrix := some ⟨[[2, 3], [5, 6]], 2⟩ }, 6) := by decide +kernel

theorem vectorFillFrom_eq (ap : List α) : ∀ (n i : Nat) (v : List α), i + n = v.length → i + n ≤ ap.length →
    ∃ w, vectorFillFrom ap n i v = .ok w ∧ w.length = v.length ∧ (∀ k : Nat, k < i → w[k]? = v[k]?) ∧
      ∀ k : Nat, i ≤ k → k < v.length → w[k]? = ap[k]?
  | 0, i, v, h, _ => ⟨v, rfl, rfl, fun _ _ => rfl, by intro k h1 h2; omega⟩
  | n + 1, i, v, h, hl => by
    have hi : i < v.length := by omega
    have ha : i < ap.length := by omega
    obtain ⟨w, a, b, c, d⟩ := vectorFillFrom_eq ap n (i + 1) (v.set i ap[i]) (by simp; omega) (by omega)
    refine ⟨w, by rw [vectorFillFrom, rd_of_lt ha]; simp only [Res.bind_ok]; rw [wr_of_lt hi]; exact a, by simpa using b, ?_, ?_⟩
    · intro k hk
      rw [c k (by omega), List.getElem?_set_ne (by omega)]
    · intro k h1 h2
      by_cases hk : k = i
      · subst hk; rw [c k (by omega), List.getElem?_set_self hi, List.getElem?_eq_getElem ha]
      · exact d k (by omega) (by simpa using h2)

/-- **C36, vectors**: the vector becomes the first values of the list, as many as it has elements. -/
theorem C36_vector_fill (ap v : List α) (h : v.length ≤ ap.length) : vectorFill ap v = .ok (ap.take v.length) := by
  obtain ⟨w, a, b, -, d⟩ := vectorFillFrom_eq ap v.length 0 v (by omega) (by omega)
  have : w = ap.take v.length := by
    apply List.ext_getElem?
    intro k
    by_cases hk : k < v.length
    · rw [d k (by omega) hk, List.getElem?_take_of_lt hk]
    · rw [List.getElem?_eq_none (by omega), List.getElem?_eq_none (by simp; omega)]
  rw [vectorFill, a, this]

example : vectorFill [7, 8, 9] [0, 0] = .ok [7, 8] := by decide +kernel

/-! ### Text -/

theorem format_plain : ∀ (s : CStr), (37 : UInt8) ∉ s → format s = .ok s
  | [], _ => rfl
  | c :: s, h => by
    simp only [List.mem_cons, not_or] at h
    unfold format
    rw [if_neg (fun e => h.1 e.symm), format_plain s h.2]; rfl

/-- What a string of the list becomes: itself, or the NaN string for NULL. -/
def shown (nan : CStr) (s : Option CStr) : CStr := s.getD nan

theorem formatOpt_plain {s : Option CStr} (h : ∀ t, s = some t → (37 : UInt8) ∉ t) : formatOpt s = .ok s := by
  cases s with
  | none => rfl
  | some t => simp [formatOpt, format_plain t (h t rfl)]

theorem textFillRow_eq (nan : CStr) (text : List (Option CStr)) (hp : ∀ t, some t ∈ text → (37 : UInt8) ∉ t) (i : Nat) :
    ∀ (n j ctr : Nat) (g : Text.Grid), g.WF → g.size.1 < 2 ^ 31 - 1 → g.size.2 < 2 ^ 31 - 1 → i < g.size.1 → j + n ≤ g.size.2 → ctr + n ≤ text.length →
    ∃ g', textFillRow nan text i n j ctr g = .ok (g', ctr + n) ∧ g'.WF ∧ g'.size = g.size ∧
      ∀ i' j', g'.get i' j' = if i' = i ∧ j ≤ j' ∧ j' < j + n then (text[ctr + (j' - j)]?).map (shown nan) else g.get i' j'
  | 0, j, ctr, g, hw, _, _, _, _, _ => ⟨g, rfl, hw, rfl, by intro i' j'; rw [if_neg (by omega)]⟩
  | n + 1, j, ctr, g, hw, h1, h2, hi, hj, hc => by
    have hct : ctr < text.length := by omega
    have hset := Text.C10_text_set g hw nan i j text[ctr] (by omega) (by omega)
    rw [if_pos ⟨hi, by omega⟩] at hset
    obtain ⟨g1, a1, b1, c1, d1⟩ := hset
    obtain ⟨g', a, b, c, d⟩ := textFillRow_eq nan text hp i n (j + 1) (ctr + 1) g1 b1 (by rw [c1]; exact h1) (by rw [c1]; exact h2)
      (by rw [c1]; exact hi) (by rw [c1]; omega) (by omega)
    refine ⟨g', ?_, b, c.trans c1, ?_⟩
    · rw [textFillRow, rd_of_lt hct]
      simp only [Res.bind_ok]
      rw [formatOpt_plain (fun t ht => hp t (ht ▸ List.getElem_mem hct))]
      simp only [Res.bind_ok]
      rw [a1]
      simp only [Res.bind_ok]
      rw [a]; congr 2; omega
    · intro i' j'
      rw [d, d1]
      by_cases hij : i' = i ∧ j' = j
      · obtain ⟨rfl, rfl⟩ := hij
        rw [if_neg (by omega), if_pos ⟨rfl, rfl⟩, if_pos (by omega)]
        simp [hct, shown]
      · by_cases hin : i' = i ∧ j + 1 ≤ j' ∧ j' < j + 1 + n
        · rw [if_pos hin, if_pos (by omega)]
          congr 2; omega
        · rw [if_neg hin, if_neg hij, if_neg (by omega)]

theorem textFillRows_eq (nan : CStr) (text : List (Option CStr)) (hp : ∀ t, some t ∈ text → (37 : UInt8) ∉ t) (w : Nat) :
    ∀ (n i ctr : Nat) (g : Text.Grid), g.WF → g.size.1 < 2 ^ 31 - 1 → g.size.2 < 2 ^ 31 - 1 → g.size.2 = w → i + n ≤ g.size.1 → ctr + n * w ≤ text.length →
    ∃ g', textFillRows nan text n i ctr g = .ok (g', ctr + n * w) ∧ g'.WF ∧ g'.size = g.size ∧
      (∀ r j, r < n → j < w → g'.get (i + r) j = (text[ctr + r * w + j]?).map (shown nan)) ∧
      (∀ i' j', i' < i → g'.get i' j' = g.get i' j')
  | 0, i, ctr, g, hw, _, _, _, _, _ => ⟨g, by simp [textFillRows], hw, rfl, by intro r j h; omega, fun _ _ _ => rfl⟩
  | n + 1, i, ctr, g, hw, h1, h2, hww, hi, hc => by
    have hmul : (n + 1) * w = n * w + w := Nat.succ_mul n w
    obtain ⟨g1, a1, b1, c1, d1⟩ := textFillRow_eq nan text hp i w 0 ctr g hw h1 h2 (by omega) (by omega) (by omega)
    obtain ⟨g', a, b, c, d, e⟩ := textFillRows_eq nan text hp w n (i + 1) (ctr + w) g1 b1 (by rw [c1]; exact h1) (by rw [c1]; exact h2)
      (by rw [c1]; exact hww) (by rw [c1]; omega) (by omega)
    refine ⟨g', ?_, b, c.trans c1, ?_, ?_⟩
    · rw [textFillRows, hww, a1]
      simp only [Res.bind_ok]
      rw [a]; congr 2; omega
    · intro r j hr hj
      cases r with
      | zero =>
        rw [Nat.add_zero, e i j (by omega), d1, if_pos (by omega)]
        simp
      | succ r =>
        have e1 : (r + 1) * w = r * w + w := Nat.succ_mul r w
        rw [show i + (r + 1) = i + 1 + r by omega, d r j (by omega) hj]
        congr 2; omega
    · intro i' j' hlt
      rw [e i' j' (by omega), d1, if_neg (by omega)]

/-- **C36, text**: with at least one string (or NULL) per cell, none holding a percent sign, cell (i,j) gets string number
`i*cols + j`; NULL becomes the NaN string. -/
theorem C36_text_fill (nan : CStr) (text : List (Option CStr)) (g : Text.Grid) (hg : g.WF)
    (hs : g.size.1 < 2 ^ 31 - 1 ∧ g.size.2 < 2 ^ 31 - 1) (hend : none ∈ text) (hp : ∀ t, some t ∈ text → (37 : UInt8) ∉ t)
    (hl : g.size.1 * g.size.2 ≤ text.length) :
    ∃ g', textFill nan text g = .ok g' ∧ g'.WF ∧ g'.size = g.size ∧
      ∀ i j, i < g.size.1 → j < g.size.2 → g'.get i j = (text[i * g.size.2 + j]?).map (fun s => s.getD nan) := by
  obtain ⟨g', a, b, c, d, -⟩ := textFillRows_eq nan text hp g.size.2 g.size.1 0 0 g hg hs.1 hs.2 rfl (by omega) (by omega)
  refine ⟨g', by simp [textFill, hend, a], b, c, ?_⟩
  intro i j hi hj
  have := d i j hi hj
  simp only [Nat.zero_add] at this
  exact this

/-- With two strings too few (`text` is the list and its terminating NULL), memory past the list is read, where the
documentation says filling stops. -/
theorem C36_text_too_few_refuted :
    textFill (str "NaN") [some (str "a"), none] ⟨some [[.nul, .nul, .nul]], (1, 3)⟩ = .ub := by decide +kernel

/-- With one string too few, the last cell becomes the NaN string. -/
theorem C36_text_one_too_few :
    textFill (str "NaN") [some (str "a"), some (str "b"), none] ⟨some [[.nul, .nul, .nul]], (1, 3)⟩ =
      .ok ⟨some [[.own (str "a"), .own (str "b"), .own (str "NaN")]], (1, 3)⟩ := by decide +kernel

/-- A percent sign in a string is a conversion without an argument: undefined. -/
theorem C36_text_percent_refuted :
    textFill (str "NaN") [some (str "100%"), none] ⟨some [[.nul]], (1, 1)⟩ = .ub := by decide +kernel

/-! ## C37 -/

theorem catLoop_found (d : List CStr) (r : CStr) (start m t0 : Nat) (hsz : 0 < d.length) (hm : d[m]? = some r)
    (ht : m = (start % d.length + t0) % d.length) (ht0 : t0 < d.length) :
    ∀ (rem s fuel : Nat), s + rem = t0 → rem < fuel →
      ∃ k : Nat, catLoop d r start d.length fuel ((start % d.length + s) % d.length) = some (.ok (k : Int)) ∧ d[k]? = some r
  | rem, s, 0, _, h => by omega
  | rem, s, f + 1, hs, hf => by
    have hlt : (start % d.length + s) % d.length < d.length := Nat.mod_lt _ hsz
    rw [catLoop, rd_of_lt hlt]
    simp only
    by_cases he : d[(start % d.length + s) % d.length] = r
    · rw [if_pos he]
      exact ⟨_, rfl, by rw [List.getElem?_eq_getElem hlt, he]⟩
    · rw [if_neg he]
      cases rem with
      | zero =>
        exfalso; apply he
        have hst : s = t0 := by omega
        subst hst
        rw [← ht] at hlt
        simp only [← ht]
        rw [List.getElem?_eq_getElem hlt] at hm
        exact Option.some.inj hm
      | succ rem =>
        have hnext : ((start % d.length + s) % d.length + 1) % d.length = (start % d.length + (s + 1)) % d.length := by
          rw [Nat.mod_add_mod, Nat.add_assoc]
        rw [hnext, if_neg]
        · exact catLoop_found d r start m t0 hsz hm ht ht0 rem (s + 1) f (by omega) (by omega)
        · intro h
          have hlt2 : (start % d.length + (s + 1)) % d.length < d.length := Nat.mod_lt _ hsz
          rw [h] at hlt2
          rw [Nat.mod_eq_of_lt hlt2] at h
          have h5 : start + (s + 1) < 2 * d.length := by omega
          by_cases h6 : start + (s + 1) < d.length
          · rw [Nat.mod_eq_of_lt h6] at h; omega
          · rw [Nat.mod_eq_sub_mod (by omega), Nat.mod_eq_of_lt (by omega)] at h; omega

/-- The circular search finds a key that is there, whatever the starting point, in at most one round. -/
theorem findCat_found (d : List CStr) (r : CStr) (start fuel : Nat) (h : r ∈ d) (hf : d.length ≤ fuel) :
    ∃ k : Nat, findCat fuel d r start d.length = some (.ok (k : Int)) ∧ d[k]? = some r := by
  obtain ⟨m, hm⟩ := List.mem_iff_getElem?.1 h
  have hml : m < d.length := (List.getElem?_eq_some_iff.1 hm).1
  have hsz : 0 < d.length := by omega
  have hi0 : start % d.length < d.length := Nat.mod_lt _ hsz
  have hex : ∃ t0, t0 < d.length ∧ m = (start % d.length + t0) % d.length := by
    by_cases hc : start % d.length ≤ m
    · exact ⟨m - start % d.length, by omega, by rw [show start % d.length + (m - start % d.length) = m by omega, Nat.mod_eq_of_lt hml]⟩
    · refine ⟨m + d.length - start % d.length, by omega, ?_⟩
      rw [show start % d.length + (m + d.length - start % d.length) = m + d.length by omega, Nat.add_mod_right, Nat.mod_eq_of_lt hml]
  obtain ⟨t0, h1, h2⟩ := hex
  obtain ⟨k, a, b⟩ := catLoop_found d r start m t0 hsz hm h2 h1 t0 0 fuel (by omega) (by omega)
  refine ⟨k, ?_, b⟩
  rw [findCat, if_neg (by omega)]
  rw [Nat.add_zero, Nat.mod_mod] at a
  exact a

theorem cellSet_eq {m : List (List α)} {i j : Nat} {x : α} {C : Nat} (hr : ∀ r ∈ m, r.length = C) (hi : i < m.length) (hj : j < C) :
    ∃ m', cellSet m i j x = .ok m' ∧ m'.length = m.length ∧ (∀ r ∈ m', r.length = C) ∧
      ∀ i' j', (m'[i']?.bind (·[j']?)) = if i' = i ∧ j' = j then some x else (m[i']?.bind (·[j']?)) := by
  have hjr : j < m[i].length := by rw [hr _ (List.getElem_mem hi)]; exact hj
  refine ⟨m.set i (m[i].set j x), by simp [cellSet, rd_of_lt hi, wr_of_lt hjr, wr_of_lt hi], by simp, ?_, ?_⟩
  · intro r hm
    rcases List.mem_or_eq_of_mem_set hm with h | rfl
    · exact hr r h
    · rw [List.length_set]; exact hr _ (List.getElem_mem hi)
  · intro i' j'
    by_cases h : i' = i
    · subst h
      rw [List.getElem?_set_self hi, List.getElem?_eq_getElem hi]
      simp only [Option.bind_some, true_and]
      by_cases h2 : j' = j
      · subst h2; rw [List.getElem?_set_self hjr, if_pos rfl]
      · rw [List.getElem?_set_ne (fun e => h2 e.symm), if_neg h2]
    · rw [List.getElem?_set_ne (fun e => h e.symm), if_neg (fun e => h e.1)]

/-- The value of the last record with the given keys, else `z`. -/
def lastVal (atof : CStr → α) (recs : List (CStr × CStr × CStr)) (r c : CStr) (z : α) : α :=
  ((recs.reverse.find? (fun x => x.1 == r && x.2.1 == c)).map (fun x => atof x.2.2)).getD z

theorem lastVal_cons (atof : CStr → α) (x : CStr × CStr × CStr) (recs : List (CStr × CStr × CStr)) (r c : CStr) (z : α) :
    lastVal atof (x :: recs) r c z = lastVal atof recs r c (if x.1 = r ∧ x.2.1 = c then atof x.2.2 else z) := by
  unfold lastVal
  rw [List.reverse_cons, List.find?_append]
  cases h : recs.reverse.find? (fun x => x.1 == r && x.2.1 == c) with
  | some y => simp
  | none =>
    by_cases hx : x.1 = r ∧ x.2.1 = c
    · simp [hx]
    · rw [if_neg hx, List.find?_cons_of_neg (by simpa using hx)]; simp

theorem nodup_index {d : List CStr} (h : d.Nodup) {i j : Nat} {r : CStr} (hi : d[i]? = some r) (hj : d[j]? = some r) : i = j := by
  obtain ⟨h1, h2⟩ := List.getElem?_eq_some_iff.1 hi
  obtain ⟨h3, h4⟩ := List.getElem?_eq_some_iff.1 hj
  have hp := List.pairwise_iff_getElem.1 h
  rcases Nat.lt_trichotomy i j with hl | hl | hl
  · exact absurd (h2.trans h4.symm) (hp i j h1 h3 hl)
  · exact hl
  · exact absurd (h4.trans h2.symm) (hp j i h3 h1 hl)

theorem crossLoop_eq (atof : CStr → α) (fuel : Nat) (R C : List CStr) (hR : R.Nodup) (hC : C.Nodup) (hf1 : R.length ≤ fuel) (hf2 : C.length ≤ fuel) :
    ∀ (recs : List (CStr × CStr × CStr)) (i j : Nat) (m : List (List α)) (f : Nat → Nat → α),
      (∀ x ∈ recs, x.1 ∈ R ∧ x.2.1 ∈ C) → m.length = R.length → (∀ r ∈ m, r.length = C.length) →
      (∀ i' j', i' < R.length → j' < C.length → (m[i']?.bind (·[j']?)) = some (f i' j')) →
      ∃ m', crossLoop atof fuel R C recs i j m = some (.ok (m', true)) ∧ m'.length = R.length ∧ (∀ r ∈ m', r.length = C.length) ∧
        ∀ i' j' r c, R[i']? = some r → C[j']? = some c → (m'[i']?.bind (·[j']?)) = some (lastVal atof recs r c (f i' j'))
  | [], i, j, m, f, _, h1, h2, h3 => by
    refine ⟨m, rfl, h1, h2, ?_⟩
    intro i' j' r c hr hc
    rw [h3 i' j' (List.getElem?_eq_some_iff.1 hr).1 (List.getElem?_eq_some_iff.1 hc).1]
    rfl
  | (kr, kc, v) :: recs, i, j, m, f, hin, h1, h2, h3 => by
    obtain ⟨hr, hc⟩ := hin (kr, kc, v) (by simp)
    obtain ⟨k1, a1, b1⟩ := findCat_found R kr i fuel hr hf1
    obtain ⟨k2, a2, b2⟩ := findCat_found C kc j fuel hc hf2
    have hk1 : k1 < m.length := by rw [h1]; exact (List.getElem?_eq_some_iff.1 b1).1
    have hk2 : k2 < C.length := (List.getElem?_eq_some_iff.1 b2).1
    obtain ⟨m1, e1, e2, e3, e4⟩ := cellSet_eq (x := atof v) h2 hk1 hk2
    obtain ⟨m', g1, g2, g3, g4⟩ := crossLoop_eq atof fuel R C hR hC hf1 hf2 recs k1 k2 m1
      (fun i' j' => if i' = k1 ∧ j' = k2 then atof v else f i' j') (fun x hx => hin x (by simp [hx])) (e2.trans h1) e3
      (by
        intro i' j' hi' hj'
        rw [e4]
        split
        · rfl
        · exact h3 i' j' hi' hj')
    refine ⟨m', ?_, g2, g3, ?_⟩
    · rw [crossLoop, a1, a2]
      simp only
      rw [if_neg (by omega), Int.toNat_natCast, Int.toNat_natCast, e1]
      exact g1
    · intro i' j' r c hr' hc'
      rw [g4 i' j' r c hr' hc', lastVal_cons]
      congr 2
      have : (i' = k1 ∧ j' = k2) ↔ (kr = r ∧ kc = c) := by
        constructor
        · rintro ⟨rfl, rfl⟩
          rw [b1] at hr'; rw [b2] at hc'
          exact ⟨Option.some.inj hr', Option.some.inj hc'⟩
        · rintro ⟨rfl, rfl⟩
          exact ⟨nodup_index hR hr' b1, nodup_index hC hc' b2⟩
      by_cases h : i' = k1 ∧ j' = k2
      · rw [if_pos h, if_pos (this.1 h)]
      · rw [if_neg h, if_neg (fun h' => h (this.2 h'))]

/-- **C37**: for any records, in any order, whose keys are among the distinct keys found, the search always ends, and
cell (r,c) holds the value of the last record with those keys, zero if there is none. -/
theorem C37_crosstab (zero : α) (atof : CStr → α) (R C : List CStr) (hR : R.Nodup) (hC : C.Nodup) (recs : List (CStr × CStr × CStr))
    (hin : ∀ x ∈ recs, x.1 ∈ R ∧ x.2.1 ∈ C) :
    ∃ fuel0, ∀ fuel, fuel0 ≤ fuel → ∃ m, crosstab zero atof fuel R C recs = some (.ok (m, true)) ∧
      m.length = R.length ∧ (∀ r ∈ m, r.length = C.length) ∧
      ∀ (i j : Nat) (r c : CStr), R[i]? = some r → C[j]? = some c → (m[i]?.bind (·[j]?)) =
        some (((recs.reverse.find? (fun x => x.1 == r && x.2.1 == c)).map (fun x => atof x.2.2)).getD zero) := by
  refine ⟨R.length + C.length, fun fuel hf => ?_⟩
  exact crossLoop_eq atof fuel R C hR hC (by omega) (by omega) recs C.length 0 _ (fun _ _ => zero) hin (by simp)
    (by intro r hr; rw [(List.mem_replicate.1 hr).2]; simp)
    (by intro i j hi hj; simp [List.getElem?_replicate, hi, hj])

/-- The search itself need not end: if the starting point is not below the size and the key is not there, no number of
rounds suffices. -/
theorem C37_search_diverges (d : List CStr) (r : CStr) (start : Nat) (hd : d ≠ []) (hs : d.length ≤ start) (h : r ∉ d) :
    ∀ fuel, findCat fuel d r start d.length = none := by
  have hsz : 0 < d.length := List.length_pos_iff.2 hd
  have key : ∀ fuel i, i < d.length → catLoop d r start d.length fuel i = none := by
    intro fuel
    induction fuel with
    | zero => intro i _; rfl
    | succ f ih =>
      intro i hi
      have hm : (i + 1) % d.length < d.length := Nat.mod_lt _ hsz
      rw [catLoop, rd_of_lt hi]
      simp only
      rw [if_neg (by intro e; exact h (by rw [← e]; exact List.getElem_mem hi)), if_neg (by omega)]
      exact ih _ hm
  intro fuel
  rw [findCat, if_neg (by omega)]
  exact key fuel _ (Nat.mod_lt _ hsz)

example : crosstab 0 (fun s => s.length) 9 [str "a", str "b"] [str "x", str "y", str "z"]
    [(str "b", str "z", str "777"), (str "a", str "x", str "1"), (str "b", str "z", str "22")] =
    some (.ok ([[1, 0, 0], [0, 0, 2]], true)) := by decide +kernel

end Apop.Conv
