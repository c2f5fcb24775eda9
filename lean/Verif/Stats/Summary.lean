import Verif.Stats.CovMatrix
import Verif.Stats.Percentiles

/-! # C172: `apop_data_summarize` and `apop_vector_correlation` (apop_stats.m4.c:147-167, 386-431)

Exact arithmetic over the reals; NaN is `none`. -/

namespace Apop.Stats
open Real

/-- `sqrt`: NaN below zero. -/
noncomputable def csqrt (x : ℝ) : Option ℝ := if x < 0 then none else some √x

/-- `apop_vector_correlation`, apop_stats.m4.c:162-167. -/
noncomputable def vectorCorr (a b w : Option (List ℝ)) : Option ℝ := do
  let c ← vectorCov a b w
  let va ← vectorVar a w
  let vb ← vectorVar b w
  let s ← csqrt (va * vb)
  cdiv c s

/-- The mean of lines 414-420. -/
noncomputable def sumMean (v : List ℝ) : Option (List ℝ) → Option ℝ
  | none => vectorMean (some v) none
  | some w => vectorMean (some v) (some w)

/-- The variance of lines 414-420: `apop_vector_var_m` with the mean just found, or the weighted variance. -/
noncomputable def sumVar (v : List ℝ) : Option (List ℝ) → Option ℝ
  | none => (vectorMean (some v) none).bind (gslVarM v)
  | some w => vectorVar (some v) (some w)

/-- One row of the output. -/
structure SumRow where
  mean : Option ℝ
  sd : Option ℝ
  var : Option ℝ
  low : ℝ
  median : ℝ
  high : ℝ

/-- Lines 421-427: the default rounding of `apop_vector_percentiles` is 'd'. -/
noncomputable def sumRowOf (v : List ℝ) (w : Option (List ℝ)) (pct : List ℝ) : Res SumRow := do
  .ok ⟨sumMean v w, (sumVar v w).bind csqrt, sumVar v w, ← rd pct 0, ← rd pct 50, ← rd pct 100⟩

/-- The body of the loop, lines 412-429. -/
noncomputable def sumRow (v : List ℝ) (w : Option (List ℝ)) : Res SumRow := do
  sumRowOf v w (← percentiles v 'd')

/-- The loop over the columns. -/
noncomputable def sumRows (rows : List (List ℝ)) (w : Option (List ℝ)) : List ℕ → Res (List SumRow)
  | [] => .ok []
  | i :: is => do
    let r ← sumRow (colOf rows i) w
    .ok (r :: (← sumRows rows w is))

/-- `apop_data_summarize`, apop_stats.m4.c:386-431: the matrix, for data with `n` columns. -/
noncomputable def summarize (rows : List (List ℝ)) (w : Option (List ℝ)) (n : ℕ) : Res (List SumRow) := sumRows rows w (List.range n)

/-- The row names of the output, lines 399-411: the column names of the input as they are, or made-up ones if there is no name structure at all. -/
def sumNames (n : ℕ) : Option (List String) → List String
  | some cols => cols
  | none => (List.range n).map fun i => "col " ++ toString i

/-! ### Specification -/

/-- `m` is a median of `v`: one of its elements, with at least half of them no larger and at least half no smaller. -/
def IsMedian (v : List ℝ) (m : ℝ) : Prop := m ∈ v ∧ v.length ≤ 2 * v.countP (· ≤ m) ∧ v.length ≤ 2 * v.countP (m ≤ ·)

/-- The smallest and the largest. -/
def IsLeastIn (v : List ℝ) (m : ℝ) : Prop := m ∈ v ∧ ∀ y ∈ v, m ≤ y
def IsGreatestIn (v : List ℝ) (m : ℝ) : Prop := m ∈ v ∧ ∀ y ∈ v, y ≤ m

/-! ### Theorems -/

theorem pct_down {v : List ℝ} (hv : v ≠ []) {r : List ℝ} (hr : percentiles v 'd' = .ok r) {i : ℕ} (hi : i ≤ 100) : ∃ x, r[i]? = some x ∧ (sortVec v)[pctIndex i v.length]? = some x := by
  obtain ⟨r', hr', hl, hg⟩ := C55_total v hv 'd'
  rw [hr] at hr'; injection hr' with hr'; subst hr'
  have hs : sortVec v ≠ [] := by
    intro e
    have := sortVec_length v
    rw [e] at this
    exact hv (List.length_eq_zero_iff.1 this.symm)
  obtain ⟨x, hx, hx'⟩ := hg i hi
  obtain ⟨y, hy, h⟩ := pctOne_value 'd' (sortVec v) hs i hi
  rw [hx'] at hy
  injection hy with hy
  subst hy
  rw [sortVec_length] at h
  rcases h with ⟨_, _, h, _⟩ | ⟨h, _⟩ | ⟨_, h⟩
  · exact absurd h (by decide)
  · exact absurd h (by decide)
  · exact ⟨x, hx, h⟩

theorem rd_some {s : List ℝ} {k : ℕ} {x : ℝ} (h : s[k]? = some x) : rd s (k : ℕ) = .ok x := by
  obtain ⟨hk, he⟩ := List.getElem?_eq_some_iff.1 h
  rw [rd_ok hk, he]

/-- What a row holds whatever the weights. -/
theorem sumRow_ok (v : List ℝ) (hv : v ≠ []) (w : Option (List ℝ)) :
    ∃ lo m hi, sumRow v w = .ok ⟨sumMean v w, (sumVar v w).bind csqrt, sumVar v w, lo, m, hi⟩ ∧ IsLeastIn v lo ∧ IsMedian v m ∧ IsGreatestIn v hi ∧ (sortVec v)[(v.length - 1) / 2]? = some m := by
  obtain ⟨r, hr, hl, -⟩ := C55_total v hv 'd'
  obtain ⟨⟨lo, h0, e0⟩, ⟨hi, h100, e100⟩⟩ := C55_ends v hv 'd' hr
  obtain ⟨m, h50, hm⟩ := pct_down hv hr (i := 50) (by norm_num)
  have hidx : pctIndex 50 v.length = (v.length - 1) / 2 := by unfold pctIndex; omega
  rw [hidx] at hm
  have hc := sorted_count (sortVec_sorted v) hm
  rw [countP_sort, countP_sort, sortVec_length] at hc
  have hn : 0 < v.length := List.length_pos_of_ne_nil hv
  refine ⟨lo, m, hi, ?_, e0, ⟨?_, by omega, by omega⟩, e100, hm⟩
  · have a0 : rd r (0 : ℕ) = .ok lo := rd_some h0
    have a50 : rd r (50 : ℕ) = .ok m := rd_some h50
    have a100 : rd r (100 : ℕ) = .ok hi := rd_some h100
    have b0 : rd r 0 = .ok lo := a0
    have b50 : rd r 50 = .ok m := a50
    have b100 : rd r 100 = .ok hi := a100
    simp only [sumRow, hr, bind, Res.bind, sumRowOf, b0, b50, b100]
  · exact (sortVec_perm v).mem_iff.1 (List.mem_of_getElem? hm)

theorem sumRows_ok (rows : List (List ℝ)) (hr : rows ≠ []) (w : Option (List ℝ)) : ∀ is : List ℕ, ∃ out, sumRows rows w is = .ok out ∧ List.Forall₂ (fun i o => sumRow (colOf rows i) w = .ok o) is out
  | [] => ⟨[], rfl, List.Forall₂.nil⟩
  | i :: is => by
    obtain ⟨lo, m, hi, e, -⟩ := sumRow_ok (colOf rows i) (by simpa [colOf] using hr) w
    obtain ⟨out, e2, h2⟩ := sumRows_ok rows hr w is
    exact ⟨_ :: out, by simp only [sumRows, e, e2, bind, Res.bind], List.Forall₂.cons e h2⟩

theorem summarize_row (rows : List (List ℝ)) (hr : rows ≠ []) (w : Option (List ℝ)) (n : ℕ) : ∃ out, summarize rows w n = .ok out ∧ out.length = n ∧
    ∀ i < n, ∃ o, out[i]? = some o ∧ sumRow (colOf rows i) w = .ok o := by
  obtain ⟨out, e, h⟩ := sumRows_ok rows hr w (List.range n)
  have hl := h.length_eq
  rw [List.length_range] at hl
  refine ⟨out, e, hl.symm, fun i hi => ?_⟩
  have hio : i < out.length := by omega
  refine ⟨out[i], by simp, ?_⟩
  have := h.get (i := i) (by simpa using hi) hio
  simpa using this

/-- **The summary without weights**: one row for each column, in order: its mean, the square root of its sample variance, that variance, the smallest element, a median, and the largest. -/
theorem C172_summary (rows : List (List ℝ)) (hr : 2 ≤ rows.length) (n : ℕ) : ∃ out, summarize rows none n = .ok out ∧ out.length = n ∧
    ∀ i < n, ∃ o, out[i]? = some o ∧
      let v := colOf rows i
      let mean := v.sum / v.length
      let var := (v.map (fun x => (x - mean) ^ 2)).sum / ((v.length : ℝ) - 1)
      o.mean = some mean ∧ o.var = some var ∧ o.sd = some √var ∧ IsLeastIn v o.low ∧ IsMedian v o.median ∧ IsGreatestIn v o.high := by
  have hr0 : rows ≠ [] := by rintro rfl; simp at hr
  obtain ⟨out, e, hl, h⟩ := summarize_row rows hr0 none n
  refine ⟨out, e, hl, fun i hi => ?_⟩
  obtain ⟨o, ho, hs⟩ := h i hi
  refine ⟨o, ho, ?_⟩
  intro v mean var
  have hv : v ≠ [] := by simpa [v, colOf] using hr0
  have hvl : 2 ≤ v.length := by simpa [v, colOf] using hr
  obtain ⟨lo, m, hi', e', h1, h2, h3, -⟩ := sumRow_ok v hv none
  have e'' : sumRow v none = .ok o := hs
  rw [e'] at e''
  injection e'' with e''
  have hmean : sumMean v none = some mean := C51_mean v hv
  have hvar : sumVar v none = some var := by
    have := C52_var v hvl
    have hm := C51_mean v hv
    simp only [sumVar]
    rw [hm]
    have h2' : vectorVar (some v) none = gslVarM v (gslMean v) := by simp [vectorVar, checkVW, hv]
    rw [h2'] at this
    exact this
  have hpos : 0 ≤ var := by
    apply div_nonneg
    · apply List.sum_nonneg
      intro x hx
      obtain ⟨y, _, rfl⟩ := List.mem_map.1 hx
      positivity
    · have : (2 : ℝ) ≤ v.length := by exact_mod_cast hvl
      linarith
  rw [← e'']
  refine ⟨hmean, hvar, ?_, h1, h2, h3⟩
  simp only [hvar, Option.bind_some, csqrt, not_lt.2 hpos, if_false]

/-- **The summary with replicate weights**: mean, variance and standard deviation are those of the data with each row repeated as often as its weight says; but the smallest, the largest and the median are those of the rows as they stand. -/
theorem C172_weighted (rows : List (List ℝ)) (w : List ℕ) (hw : rows.length = w.length) (h2 : 2 ≤ w.sum) (n : ℕ) : ∃ out, summarize rows (some (ofCounts w)) n = .ok out ∧ out.length = n ∧
    ∀ i < n, ∃ o, out[i]? = some o ∧
      let v := colOf rows i
      let r := replicates w v
      let mean := r.sum / r.length
      let var := (r.map (fun x => (x - mean) ^ 2)).sum / ((r.length : ℝ) - 1)
      o.mean = some mean ∧ o.var = some var ∧ o.sd = some √var ∧ IsLeastIn v o.low ∧ IsMedian v o.median ∧ IsGreatestIn v o.high := by
  have hr0 : rows ≠ [] := by
    rintro rfl
    have : w = [] := List.length_eq_zero_iff.1 hw.symm
    subst this
    simp at h2
  obtain ⟨out, e, hl, h⟩ := summarize_row rows hr0 (some (ofCounts w)) n
  refine ⟨out, e, hl, fun i hi => ?_⟩
  obtain ⟨o, ho, hs⟩ := h i hi
  refine ⟨o, ho, ?_⟩
  intro v r mean var
  have hv : v ≠ [] := by simpa [v, colOf] using hr0
  have hvw : v.length = w.length := by simpa [v, colOf] using hw
  have hrl : (r.length : ℝ) = (w.sum : ℕ) := by
    have := replicates_length (K := ℝ) w v hvw
    rw [this]
    clear * -
    induction w with
    | nil => simp [ofCounts]
    | cons a w ih =>
      have e : (ofCounts (a :: w) : List ℝ) = (a : ℝ) :: ofCounts w := rfl
      rw [e, List.sum_cons, List.sum_cons, ih]
      push_cast
      ring
  have hrl' : r.length = w.sum := by exact_mod_cast hrl
  have hrne : r ≠ [] := by
    intro e0
    rw [e0] at hrl'
    simp only [List.length_nil] at hrl'
    omega
  obtain ⟨lo, m, hi', e', h1, h3, h4, -⟩ := sumRow_ok v hv (some (ofCounts w))
  have e'' : sumRow v (some (ofCounts w)) = .ok o := hs
  rw [e'] at e''
  injection e'' with e''
  have hmean : sumMean v (some (ofCounts w)) = some mean := by
    have := C51_replicates v w hv hvw hrne
    rw [C51_mean _ hrne] at this
    exact this
  have hvar : sumVar v (some (ofCounts w)) = some var := by
    have := C52_var_replicates v w hvw h2
    rw [C52_var _ (by rw [hrl']; exact h2)] at this
    exact this
  have hpos : 0 ≤ var := by
    apply div_nonneg
    · apply List.sum_nonneg
      intro x hx
      obtain ⟨y, _, rfl⟩ := List.mem_map.1 hx
      positivity
    · have : (2 : ℝ) ≤ r.length := by rw [hrl']; exact_mod_cast h2
      linarith
  rw [← e'']
  refine ⟨hmean, hvar, ?_, h1, h3, h4⟩
  simp only [hvar, Option.bind_some, csqrt, not_lt.2 hpos, if_false]

/-- One row has no variance: NaN for it and for the standard deviation, and its value for all the rest. -/
theorem C172_one_row (x : ℝ) : sumRow [x] none = .ok ⟨some x, none, none, x, x, x⟩ := by
  obtain ⟨lo, m, hi, e, h1, h2, h3, -⟩ := sumRow_ok [x] (by simp) none
  rw [e]
  have a1 := List.mem_singleton.1 h1.1
  have a2 := List.mem_singleton.1 h2.1
  have a3 := List.mem_singleton.1 h3.1
  have hm : vectorMean (some [x]) none = some x := by rw [C51_mean _ (by simp)]; simp
  subst a1 a2 a3
  simp [sumMean, sumVar, hm, gslVarM, cdiv]

/-- The median is the lower of the two in the middle, never between them: not the usual convention for a column of even length. -/
theorem C172_median_even_refuted : ∃ o, sumRow [0, 1] none = .ok o ∧ o.median = 0 := by
  obtain ⟨lo, m, hi, e, -, -, -, h⟩ := sumRow_ok [0, 1] (by simp) none
  refine ⟨_, e, ?_⟩
  have hs : sortVec ([0, 1] : List ℝ) = [0, 1] := by
    unfold sortVec
    exact List.Pairwise.insertionSort_eq (by simp)
  rw [hs] at h
  simpa using h.symm

/-- With replicate weights the median is not that of the repeated data. -/
theorem C172_median_weights_refuted : ∃ o o', sumRow [0, 1] (some (ofCounts [1, 3])) = .ok o ∧ sumRow (replicates [1, 3] [0, 1]) none = .ok o' ∧ o.median ≠ o'.median := by
  obtain ⟨lo, m, hi, e, -, -, -, h⟩ := sumRow_ok [0, 1] (by simp) (some (ofCounts [1, 3]))
  obtain ⟨lo', m', hi', e', -, -, -, h'⟩ := sumRow_ok (replicates [1, 3] [0, 1]) (by simp [replicates]) none
  refine ⟨_, _, e, e', ?_⟩
  have hs : sortVec ([0, 1] : List ℝ) = [0, 1] := List.Pairwise.insertionSort_eq (by simp)
  have hr : replicates [1, 3] ([0, 1] : List ℝ) = [0, 1, 1, 1] := by simp [replicates]
  have hs' : sortVec ([0, 1, 1, 1] : List ℝ) = [0, 1, 1, 1] := List.Pairwise.insertionSort_eq (by simp)
  rw [hs] at h
  rw [hr, hs'] at h'
  simp at h h'
  simp only
  rw [← h, ← h']
  norm_num

/-- Row names: with a name structure, the column names in order (fewer than rows if some columns have no name); without one, `col 0`, `col 1`, …: one for each column. -/
theorem C172_names (n : ℕ) : (∀ cols, sumNames n (some cols) = cols) ∧ (sumNames n none).length = n ∧ ∀ i < n, (sumNames n none)[i]? = some ("col " ++ toString i) := by
  refine ⟨fun _ => rfl, by simp [sumNames], fun i hi => by simp [sumNames, hi]⟩

/-! ### Correlation -/

/-- Two vectors side by side, with a linear function of the first as a third column. -/
def side (p q : ℝ) (a b : List ℝ) : List (List ℝ) := List.zipWith (fun x y => [x, y, p * x + q]) a b

theorem side_cols (p q : ℝ) : ∀ (a b : List ℝ), a.length = b.length →
    colOf (side p q a b) 0 = a ∧ colOf (side p q a b) 1 = b ∧ colOf (side p q a b) 2 = a.map (fun x => p * x + q)
  | [], [], _ => by simp [side, colOf]
  | [], _ :: _, h => by simp at h
  | _ :: _, [], h => by simp at h
  | x :: a, y :: b, h => by
    obtain ⟨h0, h1, h2⟩ := side_cols p q a b (by simpa using h)
    have e : side p q (x :: a) (y :: b) = [x, y, p * x + q] :: side p q a b := rfl
    have ec : ∀ i, colOf ([x, y, p * x + q] :: side p q a b) i = [x, y, p * x + q].getD i 0 :: colOf (side p q a b) i := fun _ => rfl
    rw [e, ec, ec, ec, h0, h1, h2]
    simp

/-- Vectors (and weights) for which a variance is defined: of equal length, at least two elements; or with one weight for each, none negative, that sum to at least 11/10. -/
def Usable (a b : List ℝ) (w : Option (List ℝ)) : Prop := a.length = b.length ∧ match w with
  | none => 2 ≤ a.length
  | some w => w.length = a.length ∧ a ≠ [] ∧ (∀ x ∈ w, 0 ≤ x) ∧ 11 / 10 ≤ w.sum

theorem usable_good (p q : ℝ) {a b : List ℝ} {w : Option (List ℝ)} (h : Usable a b w) : GoodWeights (side p q a b) w := by
  obtain ⟨hl, hw⟩ := h
  have hlen : (side p q a b).length = a.length := by simp [side, hl]
  cases w with
  | none => simpa [GoodWeights, hlen] using hw
  | some w =>
    obtain ⟨h1, h2, h3, h4⟩ := hw
    refine ⟨by rw [hlen]; exact h1, ?_, h3, h4⟩
    intro e
    rw [e] at hlen
    exact h2 (List.length_eq_zero_iff.1 hlen.symm)

/-- Vectors that are not constant (of positive variance). -/
def Varies (a : List ℝ) (w : Option (List ℝ)) : Prop := ∃ s, vectorVar (some a) w = some s ∧ 0 < s

/-- **The correlation** of two vectors that are not constant is a number in [-1, 1]: the covariance over the product of the standard deviations; it does not depend on the order, and is one for a vector with itself. -/
theorem C172_correlation (a b : List ℝ) (w : Option (List ℝ)) (h : Usable a b w) (ha : Varies a w) (hb : Varies b w) :
    ∃ r c sa sb, vectorCorr (some a) (some b) w = some r ∧ vectorCov (some a) (some b) w = some c ∧ vectorVar (some a) w = some sa ∧ vectorVar (some b) w = some sb ∧
      r = c / (√sa * √sb) ∧ -1 ≤ r ∧ r ≤ 1 ∧ vectorCorr (some b) (some a) w = some r ∧ vectorCorr (some a) (some a) w = some 1 := by
  obtain ⟨sa, e1, p1⟩ := ha
  obtain ⟨sb, e2, p2⟩ := hb
  obtain ⟨c0, c1, -⟩ := side_cols 0 0 a b h.1
  obtain ⟨c, r, f1, -, f2, -, -, f3, f4⟩ := C60_correlation (fun _ _ => none) (side 0 0 a b) w 2 (usable_good 0 0 h) (fun i => if i = 0 then sa else sb)
    (by
      intro i hi
      have : i = 0 ∨ i = 1 := by omega
      rcases this with rfl | rfl
      · rw [c0]; exact ⟨e1, p1⟩
      · rw [c1]; exact ⟨e2, p2⟩) 0 1 (by norm_num) (by norm_num)
  rw [c0, c1] at f1
  simp only [if_true, one_ne_zero, if_false] at f2
  have hsq : √(sa * sb) = √sa * √sb := Real.sqrt_mul p1.le sb
  have hne : √sa * √sb ≠ 0 := (mul_pos (Real.sqrt_pos.2 p1) (Real.sqrt_pos.2 p2)).ne'
  refine ⟨r, c, sa, sb, ?_, f1, e1, e2, f2, f3, f4, ?_, ?_⟩
  · simp [vectorCorr, f1, e1, e2, csqrt, not_lt.2 (mul_pos p1 p2).le, hsq, cdiv, hne, f2]
  · rw [C52_cov_comm] at f1
    rw [mul_comm sa sb] at hsq
    simp [vectorCorr, f1, e1, e2, csqrt, not_lt.2 (mul_pos p2 p1).le, cdiv, hsq, hne, f2]
  · have := C52_cov_self a w
    rw [e1] at this
    have hs : √(sa * sa) = sa := Real.sqrt_mul_self p1.le
    simp [vectorCorr, this, e1, csqrt, not_lt.2 (mul_pos p1 p1).le, hs, cdiv, p1.ne']

theorem wsum_affine (P : List (ℝ × List ℝ)) (p q : ℝ) (f g : List ℝ → ℝ) (h : ∀ u ∈ P, g u.2 = p * f u.2 + q) : wsum P g = p * wsum P f + q * (P.map (fun u => u.1)).sum := by
  unfold wsum
  induction P with
  | nil => simp
  | cons u P ih =>
    have h1 := h u (by simp)
    have h2 := ih (fun u hu => h u (by simp [hu]))
    simp only [List.map_cons, List.sum_cons, h2, h1]
    ring

theorem wsum_affine_mul (P : List (ℝ × List ℝ)) (p q : ℝ) (f g k : List ℝ → ℝ) (h : ∀ u ∈ P, g u.2 = p * f u.2 + q) :
    wsum P (fun r => g r * k r) = p * wsum P (fun r => f r * k r) + q * wsum P k := by
  unfold wsum
  induction P with
  | nil => simp
  | cons u P ih =>
    have h1 := h u (by simp)
    have h2 := ih (fun u hu => h u (by simp [hu]))
    simp only [List.map_cons, List.sum_cons, h2, h1]
    ring

theorem side_mem (p q : ℝ) : ∀ (a b : List ℝ), ∀ r ∈ side p q a b, r.getD 2 0 = p * r.getD 0 0 + q
  | [], _, r, h => by simp [side] at h
  | _ :: _, [], r, h => by simp [side] at h
  | x :: a, y :: b, r, h => by
    have e : side p q (x :: a) (y :: b) = [x, y, p * x + q] :: side p q a b := rfl
    rw [e, List.mem_cons] at h
    rcases h with rfl | h
    · simp
    · exact side_mem p q a b r h

/-- The covariance is linear: `cov(p·a + q, b) = p·cov(a, b)` and `var(p·a + q) = p²·var(a)`. -/
theorem cov_affine (p q : ℝ) (a b : List ℝ) (w : Option (List ℝ)) (h : Usable a b w) :
    ∃ c s, vectorCov (some a) (some b) w = some c ∧ vectorCov (some (a.map (fun x => p * x + q))) (some b) w = some (p * c) ∧
      vectorVar (some a) w = some s ∧ vectorVar (some (a.map (fun x => p * x + q))) w = some (p ^ 2 * s) := by
  obtain ⟨c0, c1, c2⟩ := side_cols p q a b h.1
  obtain ⟨P, W, hP, hW, -, hS, hc⟩ := cov_form_mem (side p q a b) w (usable_good p q h)
  have hl : ∀ u ∈ P, (fun r : List ℝ => r.getD 2 0) u.2 = p * (fun r : List ℝ => r.getD 0 0) u.2 + q := fun u hu => side_mem p q a b u.2 (hP u hu)
  have e01 := hc 0 1
  have e21 := hc 2 1
  have e00 := hc 0 0
  have e22 := hc 2 2
  have e20 := hc 2 0
  rw [c0, c1] at e01
  rw [c2, c1] at e21
  rw [c0, C52_cov_self] at e00
  rw [c2, C52_cov_self] at e22
  have n1 : W ≠ 0 := by linarith
  have n2 : W - 1 ≠ 0 := by linarith
  have s1 := wsum_affine P p q (fun r => r.getD 0 0) (fun r => r.getD 2 0) hl
  have s2 := wsum_affine_mul P p q (fun r => r.getD 0 0) (fun r => r.getD 2 0) (fun r => r.getD 1 0) hl
  have s3 := wsum_affine_mul P p q (fun r => r.getD 0 0) (fun r => r.getD 2 0) (fun r => r.getD 2 0) hl
  have s4 := wsum_affine_mul P p q (fun r => r.getD 0 0) (fun r => r.getD 2 0) (fun r => r.getD 0 0) hl
  have s5 : wsum P (fun r => r.getD 0 0 * r.getD 2 0) = wsum P (fun r => r.getD 2 0 * r.getD 0 0) := by congr 1; funext r; ring
  rw [hS] at s1
  refine ⟨_, _, e01, ?_, e00, ?_⟩
  · rw [e21, s2, s1]
    congr 1
    field_simp
    ring
  · rw [e22, s3, s5, s4, s1]
    congr 1
    field_simp
    ring

/-- **Invariance**: a change of origin and scale of a vector leaves its correlations alone, but for the sign if the scale is negative; so a vector has correlation 1 with every increasing linear function of it, and -1 with every decreasing one. -/
theorem C172_affine (p q : ℝ) (hp : p ≠ 0) (a b : List ℝ) (w : Option (List ℝ)) (h : Usable a b w) (ha : Varies a w) (hb : Varies b w) :
    ∃ r, vectorCorr (some a) (some b) w = some r ∧ vectorCorr (some (a.map (fun x => p * x + q))) (some b) w = some (if 0 < p then r else -r) := by
  obtain ⟨r, c, sa, sb, e1, e2, e3, e4, e5, -⟩ := C172_correlation a b w h ha hb
  obtain ⟨c', s', f1, f2, f3, f4⟩ := cov_affine p q a b w h
  rw [e2] at f1; injection f1 with f1; subst f1
  rw [e3] at f3; injection f3 with f3; subst f3
  obtain ⟨_, x1, p1⟩ := ha
  rw [e3] at x1; injection x1 with x1; subst x1
  obtain ⟨_, x2, p2⟩ := hb
  rw [e4] at x2; injection x2 with x2; subst x2
  refine ⟨r, e1, ?_⟩
  have hpp : 0 < p ^ 2 * sa := by positivity
  have hne : √sa * √sb ≠ 0 := (mul_pos (Real.sqrt_pos.2 p1) (Real.sqrt_pos.2 p2)).ne'
  have hsq : √(p ^ 2 * sa * sb) = |p| * (√sa * √sb) := by
    rw [mul_assoc, Real.sqrt_mul (sq_nonneg p), Real.sqrt_sq_eq_abs, Real.sqrt_mul p1.le]
  have hap : |p| ≠ 0 := abs_ne_zero.2 hp
  have hne2 : |p| * (√sa * √sb) ≠ 0 := mul_ne_zero hap hne
  simp only [vectorCorr, f2, f4, e4, csqrt, not_lt.2 (mul_pos hpp p2).le, if_false, hsq, cdiv, hne2, Option.bind_eq_bind, Option.bind_some, e5]
  congr 1
  split_ifs with hpos
  · rw [abs_of_pos hpos]
    field_simp
  · rw [abs_of_neg (lt_of_le_of_ne (not_lt.1 hpos) hp)]
    field_simp

/-- A constant vector has no correlation: NaN. -/
theorem C172_constant (a b : List ℝ) (w : Option (List ℝ)) (h : vectorVar (some a) w = some 0) : vectorCorr (some a) (some b) w = none ∧ vectorCorr (some b) (some a) w = none := by
  constructor
  · cases h1 : vectorCov (some a) (some b) w <;> cases h2 : vectorVar (some b) w <;> simp [vectorCorr, h, h1, h2, csqrt, cdiv]
  · cases h1 : vectorCov (some b) (some a) w <;> cases h2 : vectorVar (some b) w <;> simp [vectorCorr, h, h1, h2, csqrt, cdiv]

/-- A case: two vectors of three elements. -/
example : Usable [1, 2, 3] [2, 1, 3] none ∧ Varies [1, 2, 3] none ∧ Varies [2, 1, 3] none := by
  refine ⟨⟨rfl, by norm_num⟩, ⟨1, ?_, by norm_num⟩, ⟨1, ?_, by norm_num⟩⟩ <;>
  · rw [C52_var _ (by norm_num)]
    norm_num

end Apop.Stats
