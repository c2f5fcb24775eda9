import Verif.Views.Model

namespace Apop.Views
variable {α : Type}

/-! ## C41: views -/

/-- The parent is laid out as GSL does: rows do not overlap. Sizes are below 2^63. -/
def MatRef.OK (m : MatRef) : Prop := m.size2 ≤ m.tda ∧ m.size1 < 2 ^ 63 ∧ m.size2 < 2 ^ 63

theorem toSize_nat (x : Nat) (h : x < 2 ^ 64) : toSize (x : Int) = x := by
  unfold toSize; omega

theorem toSize_nonneg (x : Int) (h0 : 0 ≤ x) (h : x < 2 ^ 64) : toSize x = x.toNat := by
  unfold toSize; omega

/-- An `int` argument. -/
def IsInt (x : Int) : Prop := -(2 ^ 31) ≤ x ∧ x < 2 ^ 31

theorem toSize_neg (x : Int) (h : IsInt x) (hn : x < 0) : 2 ^ 63 ≤ toSize x := by
  unfold IsInt at h; unfold toSize; omega

/-- **C41** (`Apop_rv`, `Apop_mrv`): a request in range gives the elements of that row, in order;
any other gives NULL. -/
theorem C41_row_vector (m : MatRef) (hm : m.OK) (row : Int) (hr : IsInt row) :
    (0 ≤ row ∧ row < m.size1 → ∃ v, rv (some m) row = some v ∧ v.size = m.size2 ∧
      ∀ k, v.at k = m.at row.toNat k) ∧
    (¬ (0 ≤ row ∧ row < m.size1) → rv (some m) row = none) := by
  obtain ⟨h1, h2, h3⟩ := hm
  constructor
  · rintro ⟨a, b⟩
    have e := toSize_nonneg row a (by unfold IsInt at hr; omega)
    refine ⟨⟨m.at row.toNat 0, m.size2, 1⟩, ?_, rfl, ?_⟩
    · simp only [rv, e]; rw [if_neg (by omega)]
    · intro k; simp [VecRef.at, MatRef.at]
  · intro h
    simp only [rv]
    rw [if_pos]
    by_cases hn : row < 0
    · exact Or.inr hn
    · left
      rw [toSize_nonneg row (by omega) (by unfold IsInt at hr; omega)]; omega

/-- **C41** (`Apop_cv`, `Apop_mcv`): column −1 is the vector, a column in range gives its elements
from top to bottom, anything else gives NULL. -/
theorem C41_col_vector (vec : Option VecRef) (m : MatRef) (hm : m.OK) (col : Int) (hc : IsInt col) :
    (col = -1 → cv vec (some m) col = vec) ∧
    (0 ≤ col ∧ col < m.size2 → ∃ v, cv vec (some m) col = some v ∧ v.size = m.size1 ∧
      ∀ k, v.at k = m.at k col.toNat) ∧
    (col ≠ -1 → ¬ (0 ≤ col ∧ col < m.size2) → cv vec (some m) col = none) := by
  obtain ⟨h1, h2, h3⟩ := hm
  refine ⟨?_, ?_, ?_⟩
  · intro h; simp [cv, h]
  · rintro ⟨a, b⟩
    have e := toSize_nonneg col a (by unfold IsInt at hc; omega)
    refine ⟨⟨m.at 0 col.toNat, m.size1, m.tda⟩, ?_, rfl, ?_⟩
    · simp only [cv, e]; rw [if_neg (by omega), if_neg (by omega)]
    · intro k; simp [VecRef.at, MatRef.at]; omega
  · intro h1 h
    simp only [cv]
    rw [if_neg h1, if_pos]
    by_cases hn : col < 0
    · right; omega
    · left; rw [toSize_nonneg col (by omega) (by unfold IsInt at hc; omega)]; omega

/-- **C41** (`Apop_subm`) for nonnegative arguments: inside the parent, element (i,j) of the view is
element (srow+i, scol+j) of the parent; otherwise NULL. -/
theorem C41_submatrix (m : MatRef) (srow scol nrows ncols : Nat)
    (h1 : srow + nrows < 2 ^ 31) (h2 : scol + ncols < 2 ^ 31) :
    (srow + nrows ≤ m.size1 ∧ scol + ncols ≤ m.size2 →
      ∃ v, subm (some m) srow scol nrows ncols = some v ∧ v.size1 = nrows ∧ v.size2 = ncols ∧
        v.tda = m.tda ∧ ∀ i j, v.at i j = m.at (srow + i) (scol + j)) ∧
    (¬ (srow + nrows ≤ m.size1 ∧ scol + ncols ≤ m.size2) → subm (some m) srow scol nrows ncols = none) := by
  have e1 : toSize ((srow : Int) + nrows) = srow + nrows := by unfold toSize; omega
  have e2 : toSize ((scol : Int) + ncols) = scol + ncols := by unfold toSize; omega
  have e3 : toSize (nrows : Int) = nrows := toSize_nat _ (by omega)
  have e4 : toSize (ncols : Int) = ncols := toSize_nat _ (by omega)
  constructor
  · rintro ⟨a, b⟩
    refine ⟨⟨m.at srow scol, nrows, ncols, m.tda⟩, ?_, rfl, rfl, rfl, ?_⟩
    · simp only [subm, e1, e2, e3, e4]; rw [if_neg (by omega)]; simp
    · intro i j; simp only [MatRef.at, Nat.add_mul]; omega
  · intro h
    simp only [subm, e1, e2]; rw [if_pos (by omega)]

/-- **C41** (`Apop_subvector`) likewise. -/
theorem C41_subvector (v : VecRef) (start len : Nat) (h1 : start + len < 2 ^ 31) :
    (start + len ≤ v.size → ∃ u, subvector (some v) start len = some u ∧ u.size = len ∧
      ∀ k, u.at k = v.at (start + k)) ∧
    (¬ start + len ≤ v.size → subvector (some v) start len = none) := by
  have e1 : toSize ((start : Int) + len) = start + len := by unfold toSize; omega
  have e3 : toSize (len : Int) = len := toSize_nat _ (by omega)
  constructor
  · intro a
    refine ⟨⟨v.off + start * v.stride, len, v.stride⟩, ?_, rfl, ?_⟩
    · simp only [subvector, e1, e3]; rw [if_neg (by omega)]; simp
    · intro k; simp only [VecRef.at, Nat.add_mul]; omega
  · intro h
    simp only [subvector, e1]; rw [if_pos (by omega)]

/-- **C41** (finding): a negative length is not rejected when `start + len` is nonnegative: the view
announces about 2^64 elements. -/
theorem C41_negative_length_accepted (v : VecRef) (start len : Int) (hs : 0 ≤ start) (hl : IsInt len)
    (hn : len < 0) (h : 0 ≤ start + len) (hv : start + len ≤ v.size) (hs' : start < 2 ^ 31) :
    ∃ u, subvector (some v) start len = some u ∧ 2 ^ 63 ≤ u.size := by
  refine ⟨⟨v.off + start.toNat * v.stride, toSize len, v.stride⟩, ?_, toSize_neg len hl hn⟩
  · simp only [subvector]
    rw [toSize_nonneg _ h (by omega), if_neg (by omega)]

example : ∃ (v : VecRef) (start len : Int), 0 ≤ start ∧ IsInt len ∧ len < 0 ∧ 0 ≤ start + len ∧ start + len ≤ v.size :=
  ⟨⟨0, 5, 1⟩, 3, -1, by decide, by unfold IsInt; decide, by decide, by decide, by decide⟩

/-- Distinct cells of a matrix have distinct addresses. -/
theorem at_inj (m : MatRef) (hm : m.OK) {i j i' j' : Nat} (hj : j < m.size2) (hj' : j' < m.size2)
    (h : m.at i j = m.at i' j') : i = i' ∧ j = j' := by
  obtain ⟨h1, -, -⟩ := hm
  have h2 : i * m.tda + j = i' * m.tda + j' := by simp only [MatRef.at] at h; omega
  have hpos : 0 < m.tda := by omega
  have a := congrArg (· / m.tda) h2
  have b := congrArg (· % m.tda) h2
  simp only [Nat.mul_comm _ m.tda, Nat.mul_add_div hpos, Nat.mul_add_mod,
    Nat.div_eq_of_lt (show j < m.tda by omega), Nat.div_eq_of_lt (show j' < m.tda by omega),
    Nat.mod_eq_of_lt (show j < m.tda by omega), Nat.mod_eq_of_lt (show j' < m.tda by omega)] at a b
  omega

/-- Memory after a write through a pointer. -/
def write (mem : Nat → α) (a : Nat) (x : α) : Nat → α := fun b => if b = a then x else mem b

/-- **C41** (writing through): assigning element `k` of a row or column view changes the
corresponding cell of the parent matrix to that value, and no other cell. -/
theorem C41_write_through (m : MatRef) (hm : m.OK) (mem : Nat → α) (x : α) (k : Nat) :
    (∀ (row : Nat) v, row < 2 ^ 31 → rv (some m) row = some v → k < v.size →
      ∀ i j, i < m.size1 → j < m.size2 →
        write mem (v.at k) x (m.at i j) = if i = row ∧ j = k then x else mem (m.at i j)) ∧
    (∀ (col : Nat) v, col < 2 ^ 31 → cv none (some m) col = some v → k < v.size →
      ∀ i j, i < m.size1 → j < m.size2 →
        write mem (v.at k) x (m.at i j) = if i = k ∧ j = col then x else mem (m.at i j)) := by
  constructor
  · intro row v hr hv hk i j hi hj
    have hint : IsInt (row : Int) := by unfold IsInt; omega
    obtain ⟨a, b⟩ := C41_row_vector m hm row hint
    by_cases hrow : row < m.size1
    · obtain ⟨u, hu, hus, hua⟩ := a (by omega)
      rw [hu] at hv; cases hv
      simp only [write, hua, Int.toNat_natCast]
      by_cases h : i = row ∧ j = k
      · rw [if_pos h, if_pos (by rw [h.1, h.2])]
      · rw [if_neg h, if_neg]
        intro he
        exact h (at_inj m hm hj (by omega) he)
    · rw [b (by omega)] at hv; cases hv
  · intro col v hr hv hk i j hi hj
    have hint : IsInt (col : Int) := by unfold IsInt; omega
    obtain ⟨-, a, b⟩ := C41_col_vector none m hm col hint
    by_cases hcol : col < m.size2
    · obtain ⟨u, hu, hus, hua⟩ := a (by omega)
      rw [hu] at hv; cases hv
      simp only [write, hua, Int.toNat_natCast]
      by_cases h : i = k ∧ j = col
      · rw [if_pos h, if_pos (by rw [h.1, h.2])]
      · rw [if_neg h, if_neg]
        intro he
        exact h (at_inj m hm hj (by omega) he)
    · rw [b (by omega) (by omega)] at hv; cases hv

/-- A 3x2 view (tda 4) inside a bigger block meets the hypotheses. -/
example : ∃ m : MatRef, m.OK ∧ (∃ v, rv (some m) 2 = some v ∧ v.size = 2) ∧ ∃ v, cv none (some m) 1 = some v ∧ v.size = 3 :=
  ⟨⟨5, 3, 2, 4⟩, by unfold MatRef.OK; decide, ⟨⟨13, 2, 1⟩, by decide, rfl⟩, ⟨⟨6, 3, 4⟩, by decide, rfl⟩⟩

/-! ### data-set views -/

/-- Elements `r, .., r+len-1` of a list. -/
def slice {β : Type} (l : List β) (r len : Nat) : List β := (l.drop r).take len

/-- **C41** (`Apop_rs`, `Apop_r`; for the row names see `C41_rows_view_one_name`). For a range
inside every part, the view shows exactly those rows of vector, matrix, weights and text, with the
parent's column and text names; of the row names it shows (at most) one. -/
theorem C41_rows_view (p : Page α) (r len : Nat)
    (hv : ∀ v, p.vector = some v → r + len ≤ v.length) (hm : ∀ m, p.matrix = some m → r + len ≤ m.size1)
    (hw : ∀ v, p.weights = some v → r + len ≤ v.length) (ht : p.TextWF) (ht' : p.text = [] ∨ r + len ≤ p.text.length) :
    let v := rowView p r len
    v.vector = p.vector.map (slice · r len) ∧
    v.matrix = p.matrix.map (fun m => ⟨slice m.rows r len, m.cols⟩) ∧
    v.weights = p.weights.map (slice · r len) ∧
    v.text = slice p.text r len ∧ v.text.length = v.textsize.1 ∧
    v.names.map (·.col) = p.names.map (·.col) ∧ v.names.map (·.text) = p.names.map (·.text) ∧
    v.names.map (·.row) = p.names.map (fun n => slice n.row r 1) := by
  simp only [rowView]
  refine ⟨?_, ?_, ?_, ?_, ?_, ?_, ?_, ?_⟩
  · cases h : p.vector with
    | none => rfl
    | some v => have := hv v h; simp [cut, slice]; omega
  · cases h : p.matrix with
    | none => rfl
    | some m =>
      have := hm m h; unfold Mat.size1 at this
      simp only [Option.bind_some, cut, if_neg (by omega : ¬ m.rows.length < r + len), Option.map_some, slice]
  · cases h : p.weights with
    | none => rfl
    | some v => have := hw v h; simp [cut, slice]; omega
  · have := ht.1
    rcases ht' with h | h
    · simp [h, slice]
    · rw [if_pos (by omega)]; rfl
  · have := ht.1
    rcases ht' with h | h
    · rw [h] at this; simp only [List.length_nil] at this
      simp only [h, List.drop_nil, List.take_nil, List.length_nil]
      split <;> omega
    · rw [if_pos (by omega)]; simp; omega
  · cases p.names <;> rfl
  · cases p.names <;> rfl
  · cases p.names with
    | none => rfl
    | some n =>
      simp only [Option.map_some, Option.some.injEq, rowNames, slice]
      by_cases h : n.row.length ≤ r
      · simp [List.drop_eq_nil_of_le h]
      · have : min 1 (n.row.length - r) = 1 := by omega
        rw [this]

/-- **C41** (single rows, complete): `Apop_r` also shows the row's own name. -/
theorem C41_row_view (p : Page α) (r : Nat) (n : Names) (hn : p.names = some n) (h : r < n.row.length) :
    (rowView p r 1).names.map (·.row) = some [n.row[r]] := by
  have : min 1 (n.row.length - r) = 1 := by omega
  simp only [rowView, hn, Option.map_some, rowNames, this]
  rw [List.drop_eq_getElem_cons h]; rfl

/-- **C41** (finding): a view of several rows has only the first of their names. -/
theorem C41_rows_view_one_name (p : Page α) (r len : Nat) (n : Names) (hn : p.names = some n)
    (hl : 1 < len) (h : r + len ≤ n.row.length) :
    ∃ v, (rowView p r len).names = some v ∧ v.row.length = 1 ∧ v.row ≠ slice n.row r len := by
  refine ⟨rowNames n r, by simp [rowView, hn], ?_, ?_⟩
  · simp [rowNames]; omega
  · intro he
    have := congrArg List.length he
    simp [rowNames, slice] at this; omega

/-- **C41** (finding): a row out of range does not give NULL but a set whose data parts are NULL. -/
theorem C41_rows_out_of_range (p : Page α) (r len : Nat)
    (hv : ∀ v, p.vector = some v → v.length < r + len) (hm : ∀ m, p.matrix = some m → m.size1 < r + len)
    (hw : ∀ v, p.weights = some v → v.length < r + len) (ht : p.textsize.1 < r + len) :
    (rowView p r len).vector = none ∧ (rowView p r len).matrix = none ∧ (rowView p r len).weights = none ∧
      (rowView p r len).text = [] ∧ (rowView p r len).textsize.1 = 0 := by
  simp only [rowView]
  rw [if_neg (by omega)]
  refine ⟨?_, ?_, ?_, by simp, rfl⟩
  · cases h : p.vector with
    | none => rfl
    | some v => have := hv v h; simp [cut]; omega
  · cases h : p.matrix with
    | none => rfl
    | some m => have := hm m h; unfold Mat.size1 at this; simp [cut]; omega
  · cases h : p.weights with
    | none => rfl
    | some v => have := hw v h; simp [cut]; omega

/-- **C41** (`Apop_cs`, `Apop_c`): in range, exactly the requested columns, with their names (as many
as there are), the row names and the weights; out of range or without a matrix, NULL. -/
theorem C41_cols_view (p : Page α) (c len : Nat) :
    (∀ m, p.matrix = some m → c + len ≤ m.cols →
      ∃ v, colView p c len = some v ∧
        v.matrix = some ⟨m.rows.map (slice · c len), len⟩ ∧ v.weights = p.weights ∧ v.vector = none ∧
        v.names.map (·.col) = p.names.map (fun n => slice n.col c len) ∧
        v.names.map (·.row) = p.names.map (·.row)) ∧
    (∀ m, p.matrix = some m → m.cols < c + len → colView p c len = none) ∧
    (p.matrix = none → colView p c len = none) := by
  refine ⟨?_, ?_, ?_⟩
  · intro m hm h
    have e : colView p c len = some
      { vector := none, weights := p.weights
        matrix := some ⟨m.rows.map (fun r => (r.drop c).take len), len⟩
        names := p.names.map (fun n => colNames n c len) } := by
      simp only [colView, hm]; rw [if_neg (by omega)]
    refine ⟨_, e, rfl, rfl, rfl, ?_, ?_⟩
    · cases p.names with
      | none => rfl
      | some n =>
        simp only [Option.map_some, Option.some.injEq, colNames, slice]
        rw [List.take_eq_take_iff]; simp
    · cases p.names <;> rfl
  · intro m hm h; simp only [colView, hm]; rw [if_pos h]
  · intro h; simp [colView, h]

theorem putAt_getElem? {β : Type} (l : List β) (o : Nat) (xs : List β) (h : o + xs.length ≤ l.length) (k : Nat) :
    (putAt l o xs)[k]? = if o ≤ k ∧ k < o + xs.length then xs[k - o]? else l[k]? := by
  unfold putAt
  have ho : (l.take o).length = o := by simp; omega
  by_cases h1 : k < o
  · rw [List.append_assoc, List.getElem?_append_left (by omega), List.getElem?_take_of_lt h1, if_neg (by omega)]
  · by_cases h2 : k < o + xs.length
    · rw [List.append_assoc, List.getElem?_append_right (by omega), List.getElem?_append_left (by omega),
        if_pos (by omega), ho]
    · rw [List.getElem?_append_right (by simp; omega), List.getElem?_drop, if_neg (by omega)]
      congr 1
      simp only [List.length_append, ho]; omega

/-- **C41** (writing through a row view): if the rows `o, .., o+len-1` are overwritten through the
view with the content `v`, then the parent shows the new vector elements, matrix rows and weights in
exactly those rows and is unchanged in all others. -/
theorem C41_write_rows (p v : Page α) (o : Nat) (l xs : List α) (hl : p.vector = some l) (hx : v.vector = some xs)
    (h : o + xs.length ≤ l.length) (m w : Mat α) (hm : p.matrix = some m) (hw : v.matrix = some w)
    (h' : o + w.size1 ≤ m.size1) :
    (∃ l', (putRows p o v).vector = some l' ∧ ∀ k, l'[k]? = if o ≤ k ∧ k < o + xs.length then xs[k - o]? else l[k]?) ∧
    (∃ m', (putRows p o v).matrix = some m' ∧
      ∀ k, m'.rows[k]? = if o ≤ k ∧ k < o + w.size1 then w.rows[k - o]? else m.rows[k]?) := by
  refine ⟨⟨putAt l o xs, by simp only [putRows, hx, hl, Option.map_some], ?_⟩,
    ⟨{ m with rows := putAt m.rows o w.rows }, by simp only [putRows, hw, hm, Option.map_some], ?_⟩⟩
  · exact putAt_getElem? l o xs h
  · exact putAt_getElem? m.rows o w.rows h'

/-- Non-vacuity: rows 1-2 of a four-row set. -/
example : (rowView ({ vector := some [1, 2, 3, 4], matrix := some ⟨[[1], [2], [3], [4]], 1⟩ } : Page Int) 1 2).vector
      = some [2, 3] ∧
    (putRows ({ vector := some [1, 2, 3, 4], matrix := some ⟨[[1], [2], [3], [4]], 1⟩ } : Page Int) 1
      { vector := some [7, 8], matrix := some ⟨[[7], [8]], 1⟩ }).vector = some [1, 7, 8, 4] := by decide

end Apop.Views
