import Verif.Text.Model
import Verif.Data.CopyProps

/-! # C09 and C10: the text grid -/

namespace Apop.Text

/-- A usable grid: NULL with size (0,0), or exactly `size.1` rows of `size.2` readable cells, both
positive. -/
def Grid.WF (g : Grid) : Prop :=
  match g.text with
  | none => g.size = (0, 0)
  | some t => 0 < g.size.1 ∧ 0 < g.size.2 ∧ t.length = g.size.1 ∧
      ∀ r ∈ t, r.length = g.size.2 ∧ Cell.uninit ∉ r

/-- The string in cell (i,j), `none` outside the grid. -/
def Grid.get (g : Grid) (i j : Nat) : Option CStr :=
  match g.text with
  | none => none
  | some t => ((t[i]?).bind (·[j]?)).map fun
    | .own s => s
    | _ => []

theorem nulRange_ok (row : List Cell) (j n : Nat) (h : j + n ≤ row.length) :
    nulRange row j n = .ok (row.take j ++ List.replicate n .nul ++ row.drop (j + n)) := by
  induction n generalizing row j with
  | zero => simp [nulRange]
  | succ n ih =>
    have hj : j < row.length := by omega
    simp only [nulRange, wr_of_lt hj, Res.bind_ok]
    rw [ih _ _ (by simp; omega)]
    congr 1
    rw [List.take_add_one, List.take_set_of_le (Nat.le_refl j)]
    simp only [List.getElem?_set_self hj, Option.toList_some, List.append_assoc]
    rw [List.drop_set_of_lt (by omega), show j + 1 + n = j + (n + 1) by omega, List.replicate_succ]
    simp

theorem nulRange_ub (row : List Cell) (j n : Nat) (hj : j ≤ row.length) (h : row.length < j + n) :
    nulRange row j n = .ub := by
  induction n generalizing row j with
  | zero => omega
  | succ n ih =>
    simp only [nulRange]
    by_cases hj' : j < row.length
    · rw [wr_of_lt hj']; exact ih _ _ (by simp; omega) (by simp; omega)
    · simp [wr, hj']

theorem freeRange_ok (row : List Cell) (j n : Nat) (h : j + n ≤ row.length)
    (hu : Cell.uninit ∉ row) : freeRange row j n = .ok () := by
  induction n generalizing j with
  | zero => rfl
  | succ n ih =>
    have hj : j < row.length := by omega
    simp only [freeRange, rd_of_lt hj, Res.bind_ok]
    rw [if_neg, ih _ (by omega)]
    intro he; exact hu (he ▸ List.getElem_mem hj)

theorem eachRow_ok (f : List Cell → Res (List Cell)) (g : List Cell → List Cell)
    (rows : List (List Cell)) (h : ∀ r ∈ rows, f r = .ok (g r)) : eachRow f rows = .ok (rows.map g) := by
  induction rows with
  | nil => rfl
  | cons r rs ih =>
    simp only [eachRow, h r (by simp), Res.bind_ok, ih (fun r hr => h r (by simp [hr]))]
    rfl

/-- The abstract effect of a resize: keep what is in both, blank elsewhere. -/
def resized (t : List (List Cell)) (row col : Nat) : List (List Cell) :=
  (t.take row).map (fun r => r.take col ++ List.replicate (col - r.length) .nul) ++
    List.replicate (row - t.length) (List.replicate col .nul)

theorem alloc_some (g : Grid) (t : List (List Cell)) (ht : g.text = some t) (hg : g.WF)
    (row col : Nat) (hz : row = 0 ↔ col = 0) (hbad : ¬ (g.size.1 < row ∧ col < g.size.2)) :
    alloc g row col = .ok { text := if row = 0 then none else some (resized t row col),
                            size := (row, col) } := by
  have hwf := hg
  simp only [Grid.WF, ht] at hwf
  obtain ⟨h0, h1, hl, hr⟩ := hwf
  have hnz : ¬ ((row = 0 ∧ col ≠ 0) ∨ (col = 0 ∧ row ≠ 0)) := by omega
  unfold alloc
  rw [if_neg hnz, ht]
  simp only
  -- step 1
  have s1 : (if g.size.1 > row then do
        let _ ← eachRow (fun r => do freeRange r 0 g.size.2; .ok r)
          ((t.drop row).take (g.size.1 - row))
        .ok (t.take row)
      else .ok t : Res (List (List Cell))) = .ok (t.take row) := by
    split
    · rw [eachRow_ok _ id]
      · rfl
      · intro r hr'
        have hm : r ∈ t := List.mem_of_mem_drop (List.mem_of_mem_take hr')
        rw [freeRange_ok r 0 _ (by rw [(hr r hm).1]; omega) (hr r hm).2]; rfl
    · rw [List.take_of_length_le (by omega)]
  rw [s1]; simp only [Res.bind_ok]
  -- step 2
  by_cases hgrow : g.size.1 < row
  · have hcol : g.size.2 ≤ col := by omega
    have s2 : eachRow (fun r => nulRange r 0 g.size.2)
        (List.replicate (row - g.size.1) (List.replicate col Cell.uninit)) =
        .ok (List.replicate (row - g.size.1)
          (List.replicate g.size.2 .nul ++ List.replicate (col - g.size.2) .uninit)) := by
      rw [eachRow_ok _ (fun r => List.replicate g.size.2 .nul ++ r.drop g.size.2)]
      · simp
      · intro r hr'
        rw [(List.mem_replicate.1 hr').2, nulRange_ok _ _ _ (by simp; omega)]
        simp
    rw [if_pos hgrow, s2]
    simp only [Res.bind_ok]
    rw [if_neg (by omega : ¬ g.size.2 > col)]
    simp only [Res.bind_ok]
    have htk : t.take row = t := List.take_of_length_le (by omega)
    have hrow : row ≠ 0 := by omega
    rw [htk]
    by_cases hc : g.size.2 = col
    · rw [if_neg (by omega : ¬ g.size.2 ≠ col)]
      simp only [Res.bind_ok, resized, htk, hrow, if_false, hl]
      congr 4
      · symm
        rw [List.map_congr_left (g := id)]
        · simp
        · intro r hr'
          rw [(hr r hr').1, hc, Nat.sub_self]
          rw [List.take_of_length_le (by rw [(hr r hr').1]; omega)]
          simp
      · rw [hc]; simp
    · rw [if_pos hc, eachRow_ok _ (fun r => (r.take g.size.2) ++
          List.replicate (col - g.size.2) .nul)]
      · simp only [Res.bind_ok, resized, htk, hrow, if_false, hl, List.map_append,
          List.map_replicate]
        congr 3
        · congr 1
          · apply List.map_congr_left
            intro r hr'
            rw [(hr r hr').1, List.take_of_length_le (by rw [(hr r hr').1]; omega),
              List.take_of_length_le (by rw [(hr r hr').1]; omega)]
          · congr 1
            rw [List.take_append_of_le_length (by simp)]
            simp only [List.take_replicate, Nat.min_self, List.replicate_append_replicate]
            congr 1; omega
      · intro r hr'
        have hrl : (resizeRow r col).length = col ∧ (resizeRow r col).take g.size.2 = r.take g.size.2 := by
          rcases List.mem_append.1 hr' with hm | hm
          · have := (hr r hm).1
            refine ⟨by simp [resizeRow]; omega, ?_⟩
            unfold resizeRow
            rw [List.take_append_of_le_length (by simp; omega), List.take_take]
            congr 1; omega
          · have := (List.mem_replicate.1 hm).2
            have hlen : r.length = col := by rw [this]; simp; omega
            refine ⟨by simp [resizeRow]; omega, ?_⟩
            unfold resizeRow
            rw [List.take_append_of_le_length (by simp; omega), List.take_take]
            congr 1; omega
        rw [nulRange_ok _ _ _ (by rw [hrl.1]; omega), hrl.2]
        rw [List.drop_of_length_le (by rw [hrl.1]; omega)]
        simp
  · rw [if_neg hgrow]
    simp only [Res.bind_ok]
    have hm : ∀ r ∈ t.take row, r ∈ t := fun r h => List.mem_of_mem_take h
    have s3 : (if g.size.2 > col then
        eachRow (fun r => do freeRange r col (g.size.2 - col); .ok r) (t.take row)
      else .ok (t.take row) : Res (List (List Cell))) = .ok (t.take row) := by
      split
      · rw [eachRow_ok _ id]
        · simp
        · intro r hr'
          rw [freeRange_ok r _ _ (by rw [(hr r (hm r hr')).1]; omega) (hr r (hm r hr')).2]; rfl
      · rfl
    rw [s3]
    simp only [Res.bind_ok]
    have hrep : row - t.length = 0 := by omega
    by_cases hc : g.size.2 = col
    · rw [if_neg (by omega : ¬ g.size.2 ≠ col)]
      simp only [Res.bind_ok, resized, hrep, List.replicate_zero, List.append_nil]
      congr 3
      rw [List.map_congr_left (g := id)]
      · simp
      · intro r hr'
        rw [(hr r (hm r hr')).1, hc, Nat.sub_self]
        rw [List.take_of_length_le (by rw [(hr r (hm r hr')).1]; omega)]
        simp
    · rw [if_pos hc, eachRow_ok _ (fun r => r.take col ++ List.replicate (col - r.length) .nul)]
      · simp only [Res.bind_ok, resized, hrep, List.replicate_zero, List.append_nil]
      · intro r hr'
        have hrl := (hr r (hm r hr')).1
        by_cases hlt : g.size.2 < col
        · have hz : (resizeRow r col) = r ++ List.replicate (col - g.size.2) .uninit := by
            unfold resizeRow; rw [List.take_of_length_le (by omega), hrl]
          rw [hz, nulRange_ok _ _ _ (by simp; omega)]
          rw [List.take_append_of_le_length (by omega), List.take_of_length_le (by omega),
            List.drop_of_length_le (by simp; omega), List.take_of_length_le (by omega), hrl]
          simp
        · have hz : (resizeRow r col) = r.take col := by
            unfold resizeRow; rw [hrl, show col - g.size.2 = 0 by omega]; simp
          rw [hz, show col - g.size.2 = 0 by omega, hrl, show col - g.size.2 = 0 by omega]
          simp [nulRange]

theorem alloc_none (g : Grid) (ht : g.text = none) (row col : Nat) (hz : row = 0 ↔ col = 0) :
    alloc g row col = .ok ⟨if row = 0 then none else
      some (List.replicate row (List.replicate col .nul)), (row, col)⟩ := by
  have hnz : ¬ ((row = 0 ∧ col ≠ 0) ∨ (col = 0 ∧ row ≠ 0)) := by omega
  unfold alloc
  rw [if_neg hnz, ht]
  simp only
  by_cases hr : row = 0
  · simp [hr]
  · simp only [hr, if_false]
    rw [eachRow_ok _ (fun _ => List.replicate col .nul)]
    · simp
    · intro r hr'
      rw [(List.mem_replicate.1 hr').2, nulRange_ok _ _ _ (by simp)]
      simp

/-- **C09**. For every usable grid and every requested size -- except "more rows *and* fewer
columns", see `C09_grow_and_narrow_ub` -- the call never misbehaves and the result is usable; if
exactly one dimension is zero the grid is unchanged, otherwise it has exactly the requested size,
cells of both grids keep their string and all others are blank. -/
theorem C09_text_alloc (g : Grid) (hg : g.WF) (row col : Nat)
    (hbad : ¬ (g.size.1 < row ∧ 0 < col ∧ col < g.size.2)) :
    ∃ g', alloc g row col = .ok g' ∧ g'.WF ∧
      (¬ (row = 0 ↔ col = 0) → g' = g) ∧
      ((row = 0 ↔ col = 0) → g'.size = (row, col) ∧
        ∀ i j, g'.get i j =
          if i < row ∧ j < col then
            some (if i < g.size.1 ∧ j < g.size.2 then (g.get i j).getD [] else [])
          else none) := by
  by_cases hz : (row = 0 ↔ col = 0)
  · cases ht : g.text with
    | none =>
      refine ⟨_, alloc_none g ht row col hz, ?_, fun h => absurd hz h, fun _ => ⟨rfl, ?_⟩⟩
      · by_cases hr : row = 0
        · simp [Grid.WF, hr, hz.1 hr]
        · simp only [Grid.WF, hr, if_false]
          refine ⟨by omega, by omega, by simp, ?_⟩
          intro r hr'
          rw [(List.mem_replicate.1 hr').2]
          simp [List.mem_replicate]
      · intro i j
        have hs : g.size = (0, 0) := by simpa [Grid.WF, ht] using hg
        by_cases hr : row = 0
        · simp [Grid.get, hr]
        · simp only [Grid.get, hr, if_false, ht]
          by_cases hi : i < row
          · by_cases hj : j < col
            · simp [hi, hj]
            · simp [hi, hj]
          · simp [hi]
    | some t =>
      have hwf := hg
      simp only [Grid.WF, ht] at hwf
      obtain ⟨h0, h1, hl, hr⟩ := hwf
      refine ⟨_, alloc_some g t ht hg row col hz (by omega), ?_, fun h => absurd hz h,
        fun _ => ⟨rfl, ?_⟩⟩
      · by_cases hrow : row = 0
        · simp [Grid.WF, hrow, hz.1 hrow]
        · simp only [Grid.WF, hrow, if_false]
          refine ⟨by omega, by omega, by simp [resized]; omega, ?_⟩
          intro r hr'
          unfold resized at hr'
          rcases List.mem_append.1 hr' with hm | hm
          · obtain ⟨r0, hr0, rfl⟩ := List.mem_map.1 hm
            have := hr r0 (List.mem_of_mem_take hr0)
            refine ⟨by simp; omega, ?_⟩
            intro hu
            rcases List.mem_append.1 hu with hu | hu
            · exact this.2 (List.mem_of_mem_take hu)
            · exact Cell.noConfusion (List.mem_replicate.1 hu).2
          · rw [(List.mem_replicate.1 hm).2]
            simp [List.mem_replicate]
      · intro i j
        by_cases hrow : row = 0
        · simp [Grid.get, hrow]
        · simp only [Grid.get, hrow, if_false, ht, resized]
          by_cases hi : i < row
          · by_cases hit : i < t.length
            · have hri := hr t[i] (List.getElem_mem _)
              rw [List.getElem?_append_left (by simp; omega)]
              simp only [List.getElem?_map, List.getElem?_take_of_lt hi,
                List.getElem?_eq_getElem hit, Option.map_some, Option.bind_some]
              by_cases hj : j < col
              · by_cases hjt : j < t[i].length
                · rw [List.getElem?_append_left (by simp; omega), List.getElem?_take_of_lt hj]
                  rw [if_pos ⟨hi, hj⟩, if_pos ⟨by omega, by omega⟩]
                  simp [List.getElem?_eq_getElem hjt]
                · rw [List.getElem?_append_right (by simp; omega)]
                  rw [if_pos ⟨hi, hj⟩, if_neg (by omega)]
                  rw [List.getElem?_replicate, if_pos (by simp; omega)]
                  simp
              · rw [if_neg (by omega), List.getElem?_eq_none (by simp; omega)]
                rfl
            · rw [List.getElem?_append_right (by simp; omega), List.getElem?_replicate,
                if_pos (by simp; omega)]
              simp only [Option.bind_some, List.getElem?_replicate]
              by_cases hj : j < col
              · rw [if_pos hj, if_pos ⟨hi, hj⟩, if_neg (by omega)]; simp
              · rw [if_neg hj, if_neg (by omega)]; rfl
          · rw [if_neg (by omega), List.getElem?_eq_none (by simp; omega)]
            rfl
  · refine ⟨g, ?_, hg, fun _ => rfl, fun h => absurd h hz⟩
    unfold alloc
    rw [if_pos (by omega)]

/-- **C09** (finding). Adding rows while removing columns of an existing grid overruns the freshly
allocated rows: each gets `col` pointers and `cols_now > col` are written. -/
theorem C09_grow_and_narrow_ub (g : Grid) (row col : Nat) (ht : g.text ≠ none)
    (h1 : g.size.1 < row) (h0 : 0 < col) (h2 : col < g.size.2) : alloc g row col = .ub := by
  cases hx : g.text with
  | none => exact absurd hx ht
  | some t =>
    unfold alloc
    rw [if_neg (by omega), hx]
    simp only
    rw [if_neg (by omega : ¬ g.size.1 > row)]
    simp only [Res.bind_ok, if_pos h1]
    obtain ⟨k, hk⟩ : ∃ k, row - g.size.1 = k + 1 := ⟨row - g.size.1 - 1, by omega⟩
    rw [hk, List.replicate_succ]
    simp only [eachRow]
    rw [nulRange_ub _ _ _ (by simp) (by simp; omega)]
    rfl

/-- Specification: the size after a request. -/
def nextSize (s o : Nat × Nat) : Nat × Nat := if o.1 = 0 ↔ o.2 = 0 then o else s

/-- No request in the sequence adds rows while removing columns. -/
def SafeFrom : Nat × Nat → List (Nat × Nat) → Prop
  | _, [] => True
  | s, o :: os => ¬ (s.1 < o.1 ∧ 0 < o.2 ∧ o.2 < s.2) ∧ SafeFrom (nextSize s o) os

/-- **C09** (histories). Any sequence of resizes that never grows rows while narrowing columns runs
without misbehaving, keeps the grid usable, and ends with the last valid requested size. -/
theorem C09_histories (ops : List (Nat × Nat)) (g : Grid) (hg : g.WF)
    (hok : SafeFrom g.size ops) :
    ∃ g', ops.foldlM (fun g o => alloc g o.1 o.2) g = .ok g' ∧ g'.WF ∧
      g'.size = ops.foldl nextSize g.size := by
  induction ops generalizing g with
  | nil => exact ⟨g, rfl, hg, rfl⟩
  | cons o ops ih =>
    obtain ⟨g1, e1, w1, k1, k2⟩ := C09_text_alloc g hg o.1 o.2 hok.1
    simp only [List.foldlM_cons, e1, Res.bind_ok, List.foldl_cons]
    have hs : g1.size = nextSize g.size o := by
      unfold nextSize
      split
      · rename_i hz; exact (k2 hz).1
      · rename_i hz; rw [k1 hz]
    rw [← hs]
    exact ih g1 w1 (hs ▸ hok.2)

example : SafeFrom (0, 0) [(2, 3), (4, 5), (4, 0), (1, 1), (0, 0), (7, 1)] := by
  simp [SafeFrom, nextSize]

/-- Non-vacuity: a 2x2 grid with content. -/
def demo : Grid := { text := some [[.own [97], .nul], [.nul, .own [98]]], size := (2, 2) }
example : demo.WF := by simp [demo, Grid.WF]
example : alloc demo 3 2 = .ok ⟨some [[.own [97], .nul], [.nul, .own [98]], [.nul, .nul]], (3, 2)⟩ := by decide
example : alloc demo 3 1 = .ub := by decide
example : alloc demo 1 3 = .ok { text := some [[.own [97], .nul, .nul]], size := (1, 3) } := by decide

/-! ## C10 -/

theorem checkedPos_small (x : Nat) (h : x < 2 ^ 31 - 1) : checkedPos x = .ok (x + 1) := by
  unfold checkedPos
  rw [Page.toInt32_small (by omega)]
  simp only
  rw [if_neg (by omega)]
  have : ((x : Int) + 1) % 2 ^ 64 = x + 1 := Int.emod_eq_of_lt (by omega) (by omega)
  rw [this]; rfl

/-- **C10** (positions below 2^31 - 1; see `C10_huge_position_ub`). On a usable grid, a set
inside the grid returns 0, stores the string there (the NaN string for NULL), and changes no other
cell; outside it returns -1 and changes nothing. -/
theorem C10_text_set (g : Grid) (hg : g.WF) (nan : CStr) (row col : Nat) (s : Option CStr)
    (hr : row < 2 ^ 31 - 1) (hc : col < 2 ^ 31 - 1) :
    if row < g.size.1 ∧ col < g.size.2 then
      ∃ g', set g nan row col s = .ok (g', 0) ∧ g'.WF ∧ g'.size = g.size ∧
        ∀ i j, g'.get i j = if i = row ∧ j = col then some (s.getD nan) else g.get i j
    else set g nan row col s = .ok (g, -1) := by
  unfold set
  simp only [checkedPos_small row hr, checkedPos_small col hc, Res.bind_ok]
  split
  · rename_i h
    rw [if_neg (by omega), if_neg (by omega)]
    cases ht : g.text with
    | none =>
      have : g.size = (0, 0) := by simpa [Grid.WF, ht] using hg
      simp [this] at h
    | some t =>
      have hwf := hg
      simp only [Grid.WF, ht] at hwf
      obtain ⟨h0, h1, hl, hrw⟩ := hwf
      have hrt : row < t.length := by omega
      obtain ⟨hrl, hru⟩ := hrw t[row] (List.getElem_mem _)
      have hct : col < t[row].length := by omega
      simp only [rd_of_lt hrt, rd_of_lt hct, Res.bind_ok]
      have hne : t[row][col] ≠ .uninit := fun he => hru (he ▸ List.getElem_mem hct)
      rw [if_neg hne]
      simp only [wr_of_lt hct, wr_of_lt hrt, Res.bind_ok]
      refine ⟨_, rfl, ?_, rfl, ?_⟩
      · simp only [Grid.WF]
        refine ⟨h0, h1, by simp [hl], ?_⟩
        intro r hm
        rcases List.mem_or_eq_of_mem_set hm with hm | rfl
        · exact hrw r hm
        · refine ⟨by simp [hrl], ?_⟩
          intro hu
          rcases List.mem_or_eq_of_mem_set hu with hu | hu
          · exact hru hu
          · cases hu
      · intro i j
        simp only [Grid.get, ht]
        by_cases hi : i = row
        · subst hi
          simp only [List.getElem?_set_self hrt, Option.bind_some, true_and]
          by_cases hj : j = col
          · subst hj; simp [List.getElem?_set_self hct]
          · rw [List.getElem?_set_ne (by omega), if_neg hj]
            simp [List.getElem?_eq_getElem hrt]
        · rw [List.getElem?_set_ne (by omega), if_neg (by omega)]
  · rename_i h
    by_cases h1 : g.size.1 < row + 1
    · rw [if_pos h1]
    · rw [if_neg h1, if_pos (by omega)]

/-- **C10** (finding). Row `(size_t)-1` passes the bounds check of every grid (its successor as an int
is 0), so `apop_text_set(d, -1, 0, ..)` accesses memory outside the grid instead of returning -1. -/
theorem C10_huge_position_ub (g : Grid) (hg : g.WF) (hs : g.size.1 < 2 ^ 31) (h1 : 0 < g.size.2)
    (nan : CStr) (s : Option CStr) :
    set g nan (2 ^ 64 - 1) 0 s = .ub := by
  have e1 : checkedPos (2 ^ 64 - 1) = .ok 0 := by decide
  have e2 : checkedPos 0 = .ok 1 := by decide
  unfold set
  simp only [e1, e2, Res.bind_ok]
  rw [if_neg (by omega), if_neg (by omega)]
  cases ht : g.text with
  | none => rfl
  | some t =>
    simp only [Grid.WF, ht] at hg
    obtain ⟨-, -, hl, -⟩ := hg
    have : rd t (2 ^ 64 - 1) = .ub := by
      simp only [rd, List.getElem?_eq_none (by omega : t.length ≤ 2 ^ 64 - 1)]
    simp only [this]
    rfl

example : set demo [] 1 0 (some [99]) =
    .ok ({ text := some [[.own [97], .nul], [.own [99], .own [98]]], size := (2, 2) }, 0) := by decide
example : set demo [] 2 0 (some [99]) = .ok (demo, -1) := by decide

end Apop.Text
