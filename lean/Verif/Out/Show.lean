import Verif.Data.Model
import Mathlib.Tactic.Linarith
import Mathlib.Order.Basic

/-! # C190: apop_data_show -/

namespace Apop.Show
variable {α : Type}

/-- The table of strings that is printed. -/
abbrev Grid := Nat → Nat → CStr

/-- apop_text_set (C10): nothing happens outside the table. -/
def put (R C r c : Nat) (s : CStr) (g : Grid) : Grid :=
  if r < R ∧ c < C then fun i j => if i = r ∧ j = c then s else g i j else g

/-- `for (size_t i=0; i < n; i++)`. -/
def loop : Nat → (Nat → Grid → Grid) → Grid → Grid
  | 0, _, g => g
  | n + 1, f, g => f n (loop n f g)

variable (fmt : α → CStr) (p : Page α)

def vsize : Nat := (p.vector.map List.length).getD 0
def msize1 : Nat := (p.matrix.map Mat.size1).getD 0
def msize2 : Nat := (p.matrix.map Mat.cols).getD 0
def wsize : Nat := (p.weights.map List.length).getD 0
def rowNames : List CStr := (p.names.map Names.row).getD []
def colNames : List CStr := (p.names.map Names.col).getD []
def textNames : List CStr := (p.names.map Names.text).getD []
def vecName : Option CStr := p.names.bind Names.vector

/-- hasrownames, apop_output.m4.c:100. -/
def hr : Nat := if rowNames p ≠ [] then 1 else 0
/-- hascolnames, apop_output.m4.c:101-102. -/
def hc : Nat := if vecName p ≠ none ∨ colNames p ≠ [] ∨ textNames p ≠ [] then 1 else 0
/-- `vsize > 0`. -/
def hv : Nat := if 0 < vsize p then 1 else 0
/-- hasweights, apop_output.m4.c:103. -/
def hw : Nat := if p.weights.isSome then 1 else 0

/-- outsize_r, apop_output.m4.c:105-109. -/
def outR : Nat := max (max (max (max (msize1 p) (vsize p)) p.textsize.1) (wsize p)) (rowNames p).length + hc p

/-- outsize_c, apop_output.m4.c:111-115: a weights vector counts twice. -/
def outC : Nat := msize2 p + p.textsize.2 + hv p + (if 0 < wsize p then 1 else 0) + (hr p + hw p)

/-- An element of a vector or matrix as text; the code only asks for those that are there. -/
def vecAt (v : Option (List α)) (i : Nat) : CStr := ((v.bind (·[i]?)).map fmt).getD []
def matAt (i j : Nat) : CStr := ((p.matrix.bind (·.get? i j)).map fmt).getD []
def textAt (i j : Nat) : CStr := ((p.text[i]?).bind (·[j]?)).getD []

/-- apop_output.m4.c:118-136: the body. -/
def body (g : Grid) : Grid :=
  let put := put (outR p) (outC p)
  let g := loop (rowNames p).length (fun i => put (i + hc p) 0 ((rowNames p).getD i [])) g
  let g := loop (vsize p) (fun i => put (i + hc p) (hr p) (vecAt fmt p.vector i)) g
  let g := loop (msize1 p) (fun i => loop (msize2 p) fun j => put (i + hc p) (hr p + hv p + j) (matAt fmt p i j)) g
  let g := loop p.textsize.1 (fun i => loop p.textsize.2 fun j => put (i + hc p) (hr p + hv p + msize2 p + j) (textAt p i j)) g
  loop (wsize p) (fun i => put (i + hc p) (outC p - 1) (vecAt fmt p.weights i)) g

/-- apop_output.m4.c:139-150: the column names. -/
def heads (g : Grid) : Grid :=
  let put := put (outR p) (outC p)
  let g := if 0 < vsize p ∧ vecName p ≠ none then put 0 (hr p) ((vecName p).getD []) g else g
  let g := if 0 < msize2 p then loop (colNames p).length (fun i => put 0 (hr p + hv p + i) ((colNames p).getD i [])) g else g
  let g := if 0 < p.textsize.2 then loop (textNames p).length (fun i => put 0 (hr p + hv p + msize2 p + i) ((textNames p).getD i [])) g else g
  if p.weights.isSome then put 0 (outC p - 1) (str "Weights") g else g

/-- The whole table, apop_output.m4.c:117-150. -/
def grid : Grid :=
  let g := body fmt p (fun _ _ => [])
  if hc p = 1 then heads p g else g

/-- colsizes, apop_output.m4.c:153-158. -/
def width (R : Nat) (g : Grid) (c : Nat) : Nat := (List.range (R - 1)).foldl (fun w j => max w (g (j + 1) c).length) (g 0 c).length

/-- One cell with its padding and delimiter, apop_output.m4.c:165-168. -/
def cellOut (delim : CStr) (C w c : Nat) (s : CStr) : CStr :=
  List.replicate (w - s.length + 1) 32 ++ s ++ (if 0 < c ∧ c < C - 1 then 32 :: delim ++ [32] else [])

/-- One line without its newline, apop_output.m4.c:163-169. -/
def lineOut (delim : CStr) (R C : Nat) (g : Grid) (r : Nat) : CStr :=
  ((List.range C).map fun c => cellOut delim C (width R g c) c (g r c)).flatten

/-- The title, apop_output.m4.c:161-162. -/
def titleOut : CStr :=
  match p.names.bind Names.title with
  | some t => if t ≠ [] then 9 :: t ++ [10, 10] else []
  | none => []

/-- One page, apop_output.m4.c:96-170. A table with columns and no rows: `text[0]` is read
of a table that is not there. -/
def showPage (delim : CStr) : Res CStr :=
  if outR p = 0 ∧ 0 < outC p then .ub
  else .ok (titleOut p ++ ((List.range (outR p)).map fun r => lineOut delim (outR p) (outC p) (grid fmt p) r ++ [10]).flatten)

/-- apop_data_show (apop_output.m4.c:94-175), all pages. -/
def showAll (delim : CStr) : List (Page α) → Res CStr
  | [] => .ok (str "NULL" ++ [10])
  | [q] => showPage fmt q delim
  | q :: q' :: qs =>
    match showPage fmt q delim with
    | .ub => .ub
    | .ok s =>
      match showAll delim (q' :: qs) with
      | .ub => .ub
      | .ok t => .ok (s ++ [10] ++ t)

/-! ## Specification -/

/-- What should be on top of column `c`: from left to right, row names, vector, matrix,
text, and the weights last. -/
def head (c : Nat) : CStr :=
  if c < hr p then []
  else if c < hr p + hv p then (vecName p).getD []
  else if c < hr p + hv p + msize2 p then (colNames p).getD (c - (hr p + hv p)) []
  else if c < hr p + hv p + msize2 p + p.textsize.2 then (textNames p).getD (c - (hr p + hv p + msize2 p)) []
  else if c + 1 = outC p then (if p.weights.isSome then str "Weights" else []) else []

/-- What should be in row `i` of the data, column `c`. -/
def item (i c : Nat) : CStr :=
  if c < hr p then (rowNames p).getD i []
  else if c < hr p + hv p then vecAt fmt p.vector i
  else if c < hr p + hv p + msize2 p then matAt fmt p i (c - (hr p + hv p))
  else if c < hr p + hv p + msize2 p + p.textsize.2 then textAt p i (c - (hr p + hv p + msize2 p))
  else if c + 1 = outC p then vecAt fmt p.weights i else []

/-- No more names than columns. -/
structure NamesFit : Prop where
  cols : (colNames p).length ≤ msize2 p
  text : (textNames p).length ≤ p.textsize.2

/-! ## The loops -/

theorem loop_succ (n : Nat) (f : Nat → Grid → Grid) (g : Grid) : loop (n + 1) f g = f n (loop n f g) := rfl

theorem loop_col (R C c0 r0 : Nat) (f : Nat → CStr) (g : Grid) : ∀ n i j, i < R → j < C →
    loop n (fun i => put R C (i + r0) c0 (f i)) g i j = if r0 ≤ i ∧ i < r0 + n ∧ j = c0 then f (i - r0) else g i j := by
  intro n
  induction n with
  | zero => intro i j _ _; rw [if_neg (by omega)]; rfl
  | succ n ih =>
    intro i j hi hj
    rw [loop_succ]
    unfold put
    by_cases h : n + r0 < R ∧ c0 < C
    · rw [if_pos h]
      by_cases h2 : i = n + r0 ∧ j = c0
      · rw [if_pos h2, if_pos (by omega), h2.1, Nat.add_sub_cancel]
      · rw [if_neg h2]
        have := ih i j hi hj
        unfold put at this
        rw [this]
        by_cases h3 : r0 ≤ i ∧ i < r0 + n ∧ j = c0
        · rw [if_pos h3, if_pos (by omega)]
        · rw [if_neg h3, if_neg (by omega)]
    · rw [if_neg h]
      have := ih i j hi hj
      unfold put at this
      rw [this]
      by_cases h3 : r0 ≤ i ∧ i < r0 + n ∧ j = c0
      · rw [if_pos h3, if_pos (by omega)]
      · rw [if_neg h3, if_neg (by omega)]

theorem loop_row (R C c0 r : Nat) (f : Nat → CStr) (g : Grid) : ∀ n i j, i < R → j < C →
    loop n (fun k => put R C r (c0 + k) (f k)) g i j = if i = r ∧ c0 ≤ j ∧ j < c0 + n then f (j - c0) else g i j := by
  intro n
  induction n with
  | zero => intro i j _ _; rw [if_neg (by omega)]; rfl
  | succ n ih =>
    intro i j hi hj
    rw [loop_succ]
    have := ih i j hi hj
    unfold put at this ⊢
    by_cases h : r < R ∧ c0 + n < C
    · rw [if_pos h]
      by_cases h2 : i = r ∧ j = c0 + n
      · rw [if_pos h2, if_pos (by omega), h2.2, Nat.add_sub_cancel_left]
      · rw [if_neg h2, this]
        by_cases h3 : i = r ∧ c0 ≤ j ∧ j < c0 + n
        · rw [if_pos h3, if_pos (by omega)]
        · rw [if_neg h3, if_neg (by omega)]
    · rw [if_neg h, this]
      by_cases h3 : i = r ∧ c0 ≤ j ∧ j < c0 + n
      · rw [if_pos h3, if_pos (by omega)]
      · rw [if_neg h3, if_neg (by omega)]

theorem loop_grid (R C c0 r0 m : Nat) (f : Nat → Nat → CStr) (g : Grid) : ∀ n i j, i < R → j < C →
    loop n (fun i => loop m fun k => put R C (i + r0) (c0 + k) (f i k)) g i j
      = if r0 ≤ i ∧ i < r0 + n ∧ c0 ≤ j ∧ j < c0 + m then f (i - r0) (j - c0) else g i j := by
  intro n
  induction n with
  | zero => intro i j _ _; rw [if_neg (by omega)]; rfl
  | succ n ih =>
    intro i j hi hj
    rw [loop_succ, loop_row R C c0 (n + r0) (f n) _ m i j hi hj, ih i j hi hj]
    by_cases h2 : i = n + r0 ∧ c0 ≤ j ∧ j < c0 + m
    · rw [if_pos h2, if_pos (by omega), h2.1, Nat.add_sub_cancel]
    · rw [if_neg h2]
      by_cases h3 : r0 ≤ i ∧ i < r0 + n ∧ c0 ≤ j ∧ j < c0 + m
      · rw [if_pos h3, if_pos (by omega)]
      · rw [if_neg h3, if_neg (by omega)]

theorem put_at (R C r c i j : Nat) (s : CStr) (g : Grid) (hi : i < R) (hj : j < C) :
    put R C r c s g i j = if i = r ∧ j = c then s else g i j := by
  unfold put
  by_cases h : r < R ∧ c < C
  · rw [if_pos h]
  · rw [if_neg h, if_neg (by omega)]

theorem vecAt_none (v : Option (List α)) (i : Nat) (h : (v.map List.length).getD 0 ≤ i) : vecAt fmt v i = [] := by
  unfold vecAt
  cases v with
  | none => rfl
  | some l =>
    simp only [Option.map_some, Option.getD_some] at h
    simp [List.getElem?_eq_none h]

theorem matAt_none (i j : Nat) (h : msize1 p ≤ i) : matAt fmt p i j = [] := by
  unfold matAt msize1 at *
  cases hm : p.matrix with
  | none => rfl
  | some m =>
    rw [hm] at h
    simp only [Option.map_some, Option.getD_some, Mat.size1] at h
    simp [Mat.get?, List.getElem?_eq_none h]

theorem textAt_none (hp : p.TextWF) (i j : Nat) (h : p.textsize.1 ≤ i) : textAt p i j = [] := by
  unfold textAt
  rw [List.getElem?_eq_none (by rw [hp.1]; exact h)]
  rfl

theorem getD_none {l : List CStr} {i : Nat} (h : l.length ≤ i) : l.getD i [] = [] := by
  rw [List.getD_eq_getElem?_getD, List.getElem?_eq_none h]; rfl

theorem hr_le : hr p ≤ 1 := by unfold hr; split <;> omega
theorem hc_le : hc p ≤ 1 := by unfold hc; split <;> omega
theorem hr_pos : 0 < (rowNames p).length ↔ hr p = 1 := by
  unfold hr
  by_cases h : rowNames p = [] <;> simp [h, List.length_pos_iff]
theorem hv_eq : (0 < vsize p ↔ hv p = 1) ∧ hv p ≤ 1 := by unfold hv; split <;> simp_all
theorem hw_of_wsize (h : 0 < wsize p) : hw p = 1 ∧ p.weights.isSome = true := by
  unfold wsize at h
  unfold hw
  cases hw : p.weights <;> simp_all

theorem outC_eq : outC p = hr p + hv p + msize2 p + p.textsize.2 + (if 0 < wsize p then 1 else 0) + hw p := by
  unfold outC; omega

theorem body_eq (hp : p.TextWF) (r c : Nat) (hr' : r < outR p) (hc' : c < outC p) :
    body fmt p (fun _ _ => []) r c = if r < hc p then [] else item fmt p (r - hc p) c := by
  unfold body
  rw [loop_col _ _ _ _ _ _ _ r c hr' hc', loop_grid _ _ _ _ _ _ _ _ r c hr' hc', loop_grid _ _ _ _ _ _ _ _ r c hr' hc',
    loop_col _ _ _ _ _ _ _ r c hr' hc', loop_col _ _ _ _ _ _ _ r c hr' hc']
  have e1 := hr_le p
  have e2 := hr_pos p
  obtain ⟨e3, e4⟩ := hv_eq p
  have e5 := outC_eq p
  by_cases hrc : r < hc p
  · rw [if_pos hrc, if_neg (by omega), if_neg (by omega), if_neg (by omega), if_neg (by omega), if_neg (by omega)]
  rw [if_neg hrc]
  unfold item
  by_cases hwz : 0 < wsize p
  · obtain ⟨e6, e7⟩ := hw_of_wsize p hwz
    rw [if_pos hwz, e6] at e5
    by_cases hlast : c + 1 = outC p
    · rw [if_neg (show ¬ c < hr p by omega), if_neg (show ¬ c < hr p + hv p by omega), if_neg (show ¬ c < hr p + hv p + msize2 p by omega),
        if_neg (show ¬ c < hr p + hv p + msize2 p + p.textsize.2 by omega), if_pos hlast]
      by_cases h : r < hc p + wsize p
      · rw [if_pos (by omega)]
      · rw [if_neg (by omega), if_neg (by omega), if_neg (by omega), if_neg (by omega), if_neg (by omega), vecAt_none]
        unfold wsize at h; omega
    · rw [if_neg (by omega)]
      by_cases c4 : c < hr p
      · rw [if_pos c4, if_neg (by omega), if_neg (by omega), if_neg (by omega)]
        by_cases h : r < hc p + (rowNames p).length
        · rw [if_pos (by omega)]
        · rw [if_neg (by omega), getD_none (by omega)]
      rw [if_neg c4]
      by_cases c3 : c < hr p + hv p
      · rw [if_pos c3, if_neg (by omega), if_neg (by omega)]
        by_cases h : r < hc p + vsize p
        · rw [if_pos (by omega)]
        · rw [if_neg (by omega), if_neg (by omega), vecAt_none]
          unfold vsize at h; omega
      rw [if_neg c3]
      by_cases c2 : c < hr p + hv p + msize2 p
      · rw [if_pos c2, if_neg (by omega)]
        by_cases h : r < hc p + msize1 p
        · rw [if_pos (by omega)]
        · rw [if_neg (by omega), if_neg (by omega), if_neg (by omega), matAt_none]
          omega
      rw [if_neg c2]
      by_cases c1 : c < hr p + hv p + msize2 p + p.textsize.2
      · rw [if_pos c1]
        by_cases h : r < hc p + p.textsize.1
        · rw [if_pos (by omega)]
        · rw [if_neg (by omega), if_neg (by omega), if_neg (by omega), if_neg (by omega), textAt_none p hp]
          omega
      rw [if_neg c1, if_neg hlast, if_neg (by omega), if_neg (by omega), if_neg (by omega), if_neg (by omega)]
  · rw [if_neg (show ¬ (hc p ≤ r ∧ r < hc p + wsize p ∧ c = outC p - 1) by omega)]
    by_cases c4 : c < hr p
    · rw [if_pos c4, if_neg (by omega), if_neg (by omega), if_neg (by omega)]
      by_cases h : r < hc p + (rowNames p).length
      · rw [if_pos (by omega)]
      · rw [if_neg (by omega), getD_none (by omega)]
    rw [if_neg c4]
    by_cases c3 : c < hr p + hv p
    · rw [if_pos c3, if_neg (by omega), if_neg (by omega)]
      by_cases h : r < hc p + vsize p
      · rw [if_pos (by omega)]
      · rw [if_neg (by omega), if_neg (by omega), vecAt_none]
        unfold vsize at h; omega
    rw [if_neg c3]
    by_cases c2 : c < hr p + hv p + msize2 p
    · rw [if_pos c2, if_neg (by omega)]
      by_cases h : r < hc p + msize1 p
      · rw [if_pos (by omega)]
      · rw [if_neg (by omega), if_neg (by omega), if_neg (by omega), matAt_none]
        omega
    rw [if_neg c2]
    by_cases c1 : c < hr p + hv p + msize2 p + p.textsize.2
    · rw [if_pos c1]
      by_cases h : r < hc p + p.textsize.1
      · rw [if_pos (by omega)]
      · rw [if_neg (by omega), if_neg (by omega), if_neg (by omega), if_neg (by omega), textAt_none p hp]
        omega
    rw [if_neg c1, if_neg (by omega), if_neg (by omega), if_neg (by omega), if_neg (by omega)]
    by_cases hl : c + 1 = outC p
    · rw [if_pos hl, vecAt_none]
      unfold wsize at hwz; omega
    · rw [if_neg hl]

theorem heads_eq (hp : p.TextWF) (hf : NamesFit p) (hcp : hc p = 1) (r c : Nat) (hr' : r < outR p) (hc' : c < outC p) :
    heads p (body fmt p (fun _ _ => [])) r c = if r < hc p then head p c else item fmt p (r - hc p) c := by
  obtain ⟨f1, f2⟩ := hf
  have e1 := hr_le p
  obtain ⟨e3, e4⟩ := hv_eq p
  have e5 := outC_eq p
  have hb := body_eq fmt p hp r c hr' hc'
  have hA : ∀ g : Grid, (if 0 < vsize p ∧ vecName p ≠ none then put (outR p) (outC p) 0 (hr p) ((vecName p).getD []) g else g) r c
      = if r = 0 ∧ c = hr p ∧ 0 < vsize p ∧ vecName p ≠ none then (vecName p).getD [] else g r c := by
    intro g
    by_cases h : 0 < vsize p ∧ vecName p ≠ none
    · rw [if_pos h, put_at _ _ _ _ _ _ _ _ hr' hc']
      by_cases h2 : r = 0 ∧ c = hr p
      · rw [if_pos h2, if_pos ⟨h2.1, h2.2, h⟩]
      · rw [if_neg h2, if_neg (fun h3 => h2 ⟨h3.1, h3.2.1⟩)]
    · rw [if_neg h, if_neg (fun h3 => h h3.2.2)]
  have hB : ∀ g : Grid, (if 0 < msize2 p then loop (colNames p).length (fun i => put (outR p) (outC p) 0 (hr p + hv p + i) ((colNames p).getD i [])) g else g) r c
      = if r = 0 ∧ hr p + hv p ≤ c ∧ c < hr p + hv p + (colNames p).length then (colNames p).getD (c - (hr p + hv p)) [] else g r c := by
    intro g
    by_cases h : 0 < msize2 p
    · rw [if_pos h, loop_row _ _ _ _ _ _ _ r c hr' hc']
    · rw [if_neg h, if_neg (by omega)]
  have hC : ∀ g : Grid, (if 0 < p.textsize.2 then loop (textNames p).length (fun i => put (outR p) (outC p) 0 (hr p + hv p + msize2 p + i) ((textNames p).getD i [])) g else g) r c
      = if r = 0 ∧ hr p + hv p + msize2 p ≤ c ∧ c < hr p + hv p + msize2 p + (textNames p).length then (textNames p).getD (c - (hr p + hv p + msize2 p)) [] else g r c := by
    intro g
    by_cases h : 0 < p.textsize.2
    · rw [if_pos h, loop_row _ _ _ _ _ _ _ r c hr' hc']
    · rw [if_neg h, if_neg (by omega)]
  have hD : ∀ g : Grid, (if p.weights.isSome then put (outR p) (outC p) 0 (outC p - 1) (str "Weights") g else g) r c
      = if p.weights.isSome ∧ r = 0 ∧ c = outC p - 1 then str "Weights" else g r c := by
    intro g
    by_cases h : p.weights.isSome = true
    · rw [if_pos h, put_at _ _ _ _ _ _ _ _ hr' hc']
      by_cases h2 : r = 0 ∧ c = outC p - 1
      · rw [if_pos h2, if_pos ⟨h, h2⟩]
      · rw [if_neg h2, if_neg (fun h3 => h2 h3.2)]
    · rw [if_neg h, if_neg (fun h3 => h h3.1)]
  have hweq : hw p = if p.weights.isSome then 1 else 0 := rfl
  unfold heads
  rw [hD, hC, hB, hA, hb]
  by_cases hr0 : r < hc p
  · have hr00 : r = 0 := by omega
    rw [if_pos hr0, if_pos hr0]
    unfold head
    by_cases hwt : p.weights.isSome = true
    · rw [if_pos hwt] at hweq
      by_cases hl : c + 1 = outC p
      · rw [if_pos ⟨hwt, hr00, by omega⟩, if_neg (show ¬ c < hr p by omega), if_neg (show ¬ c < hr p + hv p by omega), if_neg (show ¬ c < hr p + hv p + msize2 p by omega),
          if_neg (show ¬ c < hr p + hv p + msize2 p + p.textsize.2 by omega), if_pos hl, if_pos hwt]
      · rw [if_neg (by omega), if_neg hl]
        by_cases c4 : c < hr p
        · rw [if_pos c4, if_neg (by omega), if_neg (by omega), if_neg (by omega)]
        rw [if_neg c4]
        by_cases c3 : c < hr p + hv p
        · rw [if_pos c3, if_neg (by omega), if_neg (by omega)]
          by_cases hn : vecName p = none
          · rw [if_neg (fun h => h.2.2.2 hn), hn]; rfl
          · rw [if_pos ⟨hr00, by omega, by omega, hn⟩]
        rw [if_neg c3]
        by_cases c2 : c < hr p + hv p + msize2 p
        · rw [if_pos c2, if_neg (by omega)]
          by_cases hn : c < hr p + hv p + (colNames p).length
          · rw [if_pos (by omega)]
          · rw [if_neg (by omega), if_neg (by omega), getD_none (by omega)]
        rw [if_neg c2]
        by_cases c1 : c < hr p + hv p + msize2 p + p.textsize.2
        · rw [if_pos c1]
          by_cases hn : c < hr p + hv p + msize2 p + (textNames p).length
          · rw [if_pos (by omega)]
          · rw [if_neg (by omega), if_neg (by omega), if_neg (by omega), getD_none (by omega)]
        rw [if_neg c1, if_neg (by omega), if_neg (by omega), if_neg (by omega)]
    · rw [if_neg hwt] at hweq
      have hwz : ¬ 0 < wsize p := fun h => hwt (hw_of_wsize p h).2
      rw [if_neg hwz] at e5
      rw [if_neg (fun h => hwt h.1)]
      by_cases c4 : c < hr p
      · rw [if_pos c4, if_neg (by omega), if_neg (by omega), if_neg (by omega)]
      rw [if_neg c4]
      by_cases c3 : c < hr p + hv p
      · rw [if_pos c3, if_neg (by omega), if_neg (by omega)]
        by_cases hn : vecName p = none
        · rw [if_neg (fun h => h.2.2.2 hn), hn]; rfl
        · rw [if_pos ⟨hr00, by omega, by omega, hn⟩]
      rw [if_neg c3]
      by_cases c2 : c < hr p + hv p + msize2 p
      · rw [if_pos c2, if_neg (by omega)]
        by_cases hn : c < hr p + hv p + (colNames p).length
        · rw [if_pos (by omega)]
        · rw [if_neg (by omega), if_neg (by omega), getD_none (by omega)]
      rw [if_neg c2]
      by_cases c1 : c < hr p + hv p + msize2 p + p.textsize.2
      · rw [if_pos c1]
        by_cases hn : c < hr p + hv p + msize2 p + (textNames p).length
        · rw [if_pos (by omega)]
        · rw [if_neg (by omega), if_neg (by omega), if_neg (by omega), getD_none (by omega)]
      omega
  · rw [if_neg (by omega), if_neg (by omega), if_neg (by omega), if_neg (by omega), if_neg hr0, if_neg hr0]

/-- **C190.** Every part of the data set is shown in its place: row names, vector, matrix
and text from left to right, the weights in the last column, column names on top of their
columns; and nothing else. -/
theorem C190_cells (hp : p.TextWF) (hf : NamesFit p) (r c : Nat) (hr' : r < outR p) (hc' : c < outC p) :
    grid fmt p r c = if r < hc p then head p c else item fmt p (r - hc p) c := by
  unfold grid
  by_cases h : hc p = 1
  · rw [if_pos h]
    exact heads_eq fmt p hp hf h r c hr' hc'
  · rw [if_neg h, body_eq fmt p hp r c hr' hc', if_neg (by have := hc_le p; omega), if_neg (by have := hc_le p; omega)]

/-! ## Lines -/

theorem foldl_max_le (f : Nat → Nat) : ∀ n w, w ≤ (List.range n).foldl (fun w j => max w (f j)) w
    ∧ (∀ j < n, f j ≤ (List.range n).foldl (fun w j => max w (f j)) w)
    ∧ ((List.range n).foldl (fun w j => max w (f j)) w = w ∨ ∃ j < n, (List.range n).foldl (fun w j => max w (f j)) w = f j) := by
  intro n
  induction n with
  | zero => intro w; exact ⟨Nat.le_refl _, by omega, Or.inl rfl⟩
  | succ n ih =>
    intro w
    obtain ⟨h1, h2, h3⟩ := ih w
    rw [List.range_succ, List.foldl_append]
    simp only [List.foldl_cons, List.foldl_nil]
    refine ⟨by omega, ?_, ?_⟩
    · intro j hj
      rcases Nat.lt_succ_iff_lt_or_eq.mp hj with h | rfl
      · have := h2 j h; omega
      · omega
    · rcases Nat.le_total (f n) ((List.range n).foldl (fun w j => max w (f j)) w) with h | h
      · rw [Nat.max_eq_left h]
        rcases h3 with h3 | ⟨j, hj, h3⟩
        · exact Or.inl h3
        · exact Or.inr ⟨j, by omega, h3⟩
      · exact Or.inr ⟨n, by omega, Nat.max_eq_right h⟩

/-- The width of a column is the length of its longest cell. -/
theorem width_eq (R : Nat) (hR : 0 < R) (g : Grid) (c : Nat) :
    (∀ r < R, (g r c).length ≤ width R g c) ∧ ∃ r < R, width R g c = (g r c).length := by
  obtain ⟨h1, h2, h3⟩ := foldl_max_le (fun j => (g (j + 1) c).length) (R - 1) (g 0 c).length
  constructor
  · intro r hr
    cases r with
    | zero => exact h1
    | succ r => exact h2 r (by omega)
  · rcases h3 with h3 | ⟨j, hj, h3⟩
    · exact ⟨0, hR, h3⟩
    · exact ⟨j + 1, by omega, h3⟩

/-- Where column `c` begins: the same in all lines. -/
def offset (delim : CStr) (C : Nat) (w : Nat → Nat) : Nat → Nat
  | 0 => 0
  | c + 1 => offset delim C w c + (w c + 1) + (if 0 < c ∧ c < C - 1 then delim.length + 2 else 0)

theorem cellOut_length (delim : CStr) (C w c : Nat) (s : CStr) (h : s.length ≤ w) :
    (cellOut delim C w c s).length = (w + 1) + (if 0 < c ∧ c < C - 1 then delim.length + 2 else 0) := by
  unfold cellOut
  by_cases hc : 0 < c ∧ c < C - 1
  · rw [if_pos hc, if_pos hc]; simp; omega
  · rw [if_neg hc, if_neg hc]; simp; omega

theorem prefix_length (delim : CStr) (R C : Nat) (hR : 0 < R) (g : Grid) (r : Nat) (hr : r < R) : ∀ n,
    ((List.range n).map fun c => cellOut delim C (width R g c) c (g r c)).flatten.length = offset delim C (width R g) n := by
  intro n
  induction n with
  | zero => rfl
  | succ n ih =>
    rw [List.range_succ, List.map_append, List.flatten_append, List.length_append, ih]
    simp only [List.map_cons, List.map_nil, List.flatten_cons, List.flatten_nil, List.append_nil, offset]
    rw [cellOut_length _ _ _ _ _ ((width_eq R hR g n).1 r hr)]
    omega

/-- **C190.** All lines are of the same length, and in every line column `c` is the same
stretch, as wide as the longest cell and a blank, with the cell at its right end. -/
theorem C190_aligned (delim : CStr) (R C : Nat) (g : Grid) (r c : Nat) (hr : r < R) (hc : c < C) :
    (lineOut delim R C g r).length = offset delim C (width R g) C
    ∧ ((lineOut delim R C g r).drop (offset delim C (width R g) c)).take (width R g c + 1)
      = List.replicate (width R g c + 1 - (g r c).length) 32 ++ g r c := by
  have hR : 0 < R := by omega
  have hle := (width_eq R hR g c).1 r hr
  refine ⟨prefix_length delim R C hR g r hr C, ?_⟩
  unfold lineOut
  obtain ⟨k, rfl⟩ : ∃ k, C = c + 1 + k := ⟨C - (c + 1), by omega⟩
  rw [List.range_add, List.range_succ, List.map_append, List.map_append, List.flatten_append, List.flatten_append,
    List.append_assoc, List.drop_append, prefix_length delim R (c + 1 + k) hR g r hr c, Nat.sub_self, List.drop_zero,
    List.drop_of_length_le (by rw [prefix_length delim R (c + 1 + k) hR g r hr c]), List.nil_append]
  simp only [List.map_cons, List.map_nil, List.flatten_cons, List.flatten_nil, List.append_nil]
  unfold cellOut
  rw [List.append_assoc, List.append_assoc, ← List.append_assoc, List.take_append_of_le_length (by simp; omega),
    List.take_of_length_le (by simp; omega)]
  rw [show width R g c - (g r c).length + 1 = width R g c + 1 - (g r c).length by omega]

/-- **C190.** A page with rows (or with nothing to show) is shown without leaving the
table: the title if there is one, then one line per row, the column names first. -/
theorem C190_page (delim : CStr) (h : 0 < outR p ∨ outC p = 0) :
    showPage fmt p delim = .ok (titleOut p ++ ((List.range (outR p)).map fun r => lineOut delim (outR p) (outC p) (grid fmt p) r ++ [10]).flatten)
    ∧ outR p = hc p + max (max (max (max (msize1 p) (vsize p)) p.textsize.1) (wsize p)) (rowNames p).length := by
  constructor
  · unfold showPage
    rw [if_neg (by omega)]
  · unfold outR; omega

/-- **C190.** The title: a tab, the title, an empty line; nothing without a title. -/
theorem C190_title : titleOut p = match p.names.bind Names.title with
    | some (c :: t) => 9 :: (c :: t) ++ [10, 10]
    | _ => [] := by
  unfold titleOut
  match p.names.bind Names.title with
  | none => rfl
  | some [] => rfl
  | some (c :: t) => rfl

/-- **C190.** All pages are shown, one after the other, with an empty line between. -/
theorem C190_pages (delim : CStr) (q : Page α) (qs : List (Page α)) (h : ∀ x ∈ q :: qs, 0 < outR x ∨ outC x = 0) :
    ∃ f : Page α → CStr, (∀ x ∈ q :: qs, showPage fmt x delim = .ok (f x)) ∧ showAll fmt delim (q :: qs) = .ok (List.intercalate [10] ((q :: qs).map f)) := by
  have hex : ∀ x ∈ q :: qs, ∃ s, showPage fmt x delim = .ok s := fun x hx => ⟨_, (C190_page fmt x delim (h x hx)).1⟩
  let f : Page α → CStr := fun x => match showPage fmt x delim with | .ok s => s | .ub => []
  have hf : ∀ x ∈ q :: qs, showPage fmt x delim = .ok (f x) := by
    intro x hx
    obtain ⟨s, hs⟩ := hex x hx
    simp only [f, hs]
  refine ⟨f, hf, ?_⟩
  clear hex h
  induction qs generalizing q with
  | nil => simp only [showAll]; rw [hf q (by simp)]; simp [List.intercalate]
  | cons q' qs ih =>
    have h1 := ih q' (fun x hx => hf x (List.mem_cons_of_mem _ hx))
    unfold showAll
    rw [hf q (by simp)]
    simp only []
    rw [h1]
    simp [List.intercalate, List.intersperse]

/-! ## Where it is not what one expects -/

/-- **C190** (refuted): "the weights are next to the data": with weights there is always an
empty column before them. -/
theorem C190_empty_column_refuted (hp : p.TextWF) (hf : NamesFit p) (hw' : 0 < wsize p) :
    2 ≤ outC p ∧ ∀ r < outR p, grid fmt p r (outC p - 2) = [] := by
  have e5 := outC_eq p
  obtain ⟨e6, -⟩ := hw_of_wsize p hw'
  rw [if_pos hw', e6] at e5
  refine ⟨by omega, fun r hr' => ?_⟩
  rw [C190_cells fmt p hp hf r _ hr' (by omega)]
  unfold head item
  rw [if_neg (show ¬ outC p - 2 < hr p by omega), if_neg (show ¬ outC p - 2 < hr p by omega), if_neg (show ¬ outC p - 2 < hr p + hv p by omega),
    if_neg (show ¬ outC p - 2 < hr p + hv p by omega),
    if_neg (show ¬ outC p - 2 < hr p + hv p + msize2 p by omega), if_neg (show ¬ outC p - 2 < hr p + hv p + msize2 p by omega),
    if_neg (show ¬ outC p - 2 < hr p + hv p + msize2 p + p.textsize.2 by omega), if_neg (show ¬ outC p - 2 < hr p + hv p + msize2 p + p.textsize.2 by omega),
    if_neg (show ¬ outC p - 2 + 1 = outC p by omega), if_neg (show ¬ outC p - 2 + 1 = outC p by omega)]
  exact ite_self _

/-- **C190** (refuted): with more column names than columns the extra ones are put on top of
the text. -/
theorem C190_extra_names_refuted : ∃ p : Page Nat, p.TextWF ∧ (colNames p).length = msize2 p + 1
    ∧ grid (fun n => [UInt8.ofNat (48 + n)]) p 0 1 = str "b" ∧ grid (fun n => [UInt8.ofNat (48 + n)]) p 1 1 = str "x" :=
  ⟨{ matrix := some ⟨[[7]], 1⟩, names := some (Names.alloc.addAll [str "a", str "b"] 'c'), text := [[str "x"]], textsize := (1, 1) },
    ⟨rfl, by simp⟩, by decide +kernel, by decide +kernel, by decide +kernel⟩

/-- A page with all parts. -/
def demo : Page Nat :=
  { vector := some [1, 2], matrix := some ⟨[[3], [4]], 1⟩, text := [[str "p"], [str "qq"]], textsize := (2, 1), weights := some [5, 6],
    names := some ((((Names.alloc.add (some (str "v")) 'v').1.addAll [str "m"] 'c').addAll [str "t"] 't').addAll [str "r1", str "r2"] 'r') }

/-- It meets the hypotheses, and is shown like this. -/
example : demo.TextWF ∧ NamesFit demo ∧ 0 < outR demo ∧ 0 < wsize demo
    ∧ showPage (fun n => [UInt8.ofNat (48 + n)]) demo (str "|") = .ok (
      str "    v |  m |   t |   |  Weights" ++ [10] ++ str " r1 1 |  3 |   p |   |        5" ++ [10] ++ str " r2 2 |  4 |  qq |   |        6" ++ [10]) :=
  ⟨⟨rfl, by decide⟩, ⟨by decide +kernel, by decide +kernel⟩, by decide +kernel, by decide +kernel, by decide +kernel⟩

end Apop.Show
