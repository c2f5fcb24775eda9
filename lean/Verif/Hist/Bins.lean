import Mathlib.Data.Real.Basic
import Mathlib.Analysis.Real.Sqrt
import Mathlib.Data.Int.Log
import Mathlib.Algebra.Order.Floor.Ring
import Mathlib.Algebra.Order.Round
import Mathlib.Data.List.MinMax
import Mathlib.Tactic.Linarith
import Mathlib.Tactic.FieldSimp
import Mathlib.Tactic.Ring
import Mathlib.Tactic.Positivity

/-! # C93: data put in bins -/

namespace Apop.Bins

/-! ## The model

Arithmetic is exact but for the two subtractions under the `floor`, which are rounded by `fl`: with `fl = id` all is exact. A column with a NaN is not covered. `none` is a NaN in the output. -/

/-- `GSL_DBL_EPSILON`. -/
noncomputable def eps : ℝ := 2⁻¹ ^ 52

/-- The bins of a column, as found in apop_hist.m4.c:335-346: width, offset, and `max`. -/
structure Spec where
  width : ℝ
  offset : ℝ
  max : ℝ

/-- From the first rows of a bin specification, apop_hist.m4.c:338-341: the width, and the offset if there are exactly two rows. `max` is zero, as initialised, line 328. -/
def ofRows : List ℝ → Spec
  | [w, o] => ⟨w, o, 0⟩
  | w :: _ => ⟨w, 0, 0⟩
  | [] => ⟨0, 0, 0⟩

/-- Least and greatest element, `gsl_vector_min` and `gsl_vector_max`; of an empty vector there is none. -/
noncomputable def least (col : List ℝ) : ℝ := col.tail.foldr min (col.headD 0)
noncomputable def greatest (col : List ℝ) : ℝ := col.tail.foldr max (col.headD 0)

/-- Without a specification, lines 343-345: `c` bins, or the root of the number of elements. -/
noncomputable def ofData (col : List ℝ) (c : ℕ) : Spec :=
  ⟨(greatest col - least col) / (if c = 0 then Real.sqrt col.length else c), least col, greatest col⟩

/-- The adjustment, apop_hist.m4.c:349. -/
noncomputable def adjust (s : Spec) (close : Bool) (val : ℝ) : ℝ := by
  classical exact if close = true ∧ val = s.max ∧ val ≠ s.offset then 2 * eps else 0

/-- One element, apop_hist.m4.c:348-350. A width of zero gives NaN: 0/0, or an infinity times zero. -/
noncomputable def bin (fl : ℝ → ℝ) (s : Spec) (close : Bool) (val : ℝ) : Option ℝ := by
  classical exact if s.width = 0 then none else some (⌊fl (fl (val - s.offset) - adjust s close val) / s.width⌋ * s.width + s.offset)

/-- `apop_data_to_bins`, apop_hist.m4.c:319-355, on the columns (the vector, if any, the first of them): the columns of the output and, if there was no specification, the columns of the page `<binspec>`. -/
noncomputable def toBins (fl : ℝ → ℝ) (cols : List (List ℝ)) (binspec : Option (List (List ℝ))) (count : ℕ) (close : Option Bool) : List (List (Option ℝ)) × Option (List (List ℝ)) :=
  match binspec with
  | some b => (List.zipWith (fun col rows => col.map (bin fl (ofRows rows) (close.getD false))) cols b, none)
  | none => (cols.map fun col => col.map (bin fl (ofData col count) (close.getD true)), some (cols.map fun col => [(ofData col count).width, (ofData col count).offset]))

/-! ## Rounding to double precision, away from underflow and overflow -/

/-- `x` rounded to 53 binary digits. -/
noncomputable def fl53 (x : ℝ) : ℝ := round (x / 2 ^ (Int.log 2 |x| - 52)) * 2 ^ (Int.log 2 |x| - 52)

/-! ## Proofs -/

theorem eps_pos : 0 < eps := by unfold eps; positivity

theorem bin_spec (w o v : ℝ) (hw : 0 < w) : ∃ k : ℤ, (⌊(v - o) / w⌋ * w + o : ℝ) = o + k * w ∧ o + k * w ≤ v ∧ v < o + k * w + w := by
  refine ⟨⌊(v - o) / w⌋, by ring, ?_, ?_⟩
  · have := Int.floor_le ((v - o) / w)
    rw [le_div_iff₀ hw] at this
    linarith
  · have := Int.lt_floor_add_one ((v - o) / w)
    rw [div_lt_iff₀ hw] at this
    linarith

/-- **C93 (given bins).** For any data and any specification of one or two rows of positive widths, bins not closed at the top: each output is the lower end of a bin — the offset (zero, if none was given) plus a whole number of widths — and the value is in that bin, from its lower end up to, but not including, its upper end. -/
theorem C93_bin (w o v : ℝ) (hw : 0 < w) : (∃ k : ℤ, bin id (ofRows [w, o]) false v = some (o + k * w) ∧ o + k * w ≤ v ∧ v < o + k * w + w) ∧
    ∃ k : ℤ, bin id (ofRows [w]) false v = some (k * w) ∧ k * w ≤ v ∧ v < k * w + w := by
  constructor
  · obtain ⟨k, h1, h2, h3⟩ := bin_spec w o v hw
    refine ⟨k, ?_, h2, h3⟩
    unfold bin
    rw [if_neg (by simpa [ofRows] using hw.ne'), ← h1]
    simp [ofRows, adjust]
  · obtain ⟨k, h1, h2, h3⟩ := bin_spec w 0 v hw
    refine ⟨k, ?_, by linarith, by linarith⟩
    unfold bin
    have : (k : ℝ) * w = 0 + k * w := by ring
    rw [if_neg (by simpa [ofRows] using hw.ne'), this, ← h1]
    simp [ofRows, adjust]

/-- So are all the elements of all the columns, each with its column's specification. -/
theorem C93_columns (fl : ℝ → ℝ) (cols b : List (List ℝ)) (close : Option Bool) (c : ℕ) (j i : ℕ) (col rows : List ℝ) (v : ℝ) (h1 : cols[j]? = some col) (h2 : b[j]? = some rows) (h3 : col[i]? = some v) :
    ((toBins fl cols (some b) c close).1[j]?.bind fun x => x[i]?) = some (bin fl (ofRows rows) (close.getD false) v) ∧
    ((toBins fl cols none c close).1[j]?.bind fun x => x[i]?) = some (bin fl (ofData col c) (close.getD true) v) := by
  constructor
  · simp [toBins, List.getElem?_zipWith, h1, h2, h3]
  · simp [toBins, h1, h3]

/-- **C93 (again).** Binning what was binned, with the same bins, changes nothing. -/
theorem C93_idempotent (w o v : ℝ) (hw : 0 < w) (x : ℝ) (h : bin id (ofRows [w, o]) false v = some x) : bin id (ofRows [w, o]) false x = some x := by
  obtain ⟨⟨k, h1, _, _⟩, _⟩ := C93_bin w o v hw
  rw [h1] at h
  cases h
  unfold bin
  rw [if_neg (by simpa [ofRows] using hw.ne')]
  have : (o + k * w - o) / w = (k : ℝ) := by field_simp; ring
  simp only [ofRows, adjust, id, Bool.false_eq_true, false_and, if_false, sub_zero, this, Int.floor_intCast]
  congr 1
  ring

theorem least_spec (col : List ℝ) (h : col ≠ []) : least col ∈ col ∧ ∀ x ∈ col, least col ≤ x := by
  cases col with
  | nil => exact absurd rfl h
  | cons a l =>
    simp only [least, List.tail_cons, List.headD_cons]
    clear h
    induction l with
    | nil => simp
    | cons b l ih =>
      obtain ⟨h1, h2⟩ := ih
      simp only [List.foldr_cons]
      refine ⟨?_, ?_⟩
      · rcases min_choice b (l.foldr min a) with e | e <;> rw [e]
        · simp
        · rcases List.mem_cons.1 h1 with h | h
          · rw [h]; simp
          · simp [h]
      · intro x hx
        simp only [List.mem_cons] at hx
        rcases hx with rfl | rfl | hx
        · exact (min_le_right _ _).trans (h2 _ (by simp))
        · exact min_le_left _ _
        · exact (min_le_right _ _).trans (h2 _ (by simp [hx]))

theorem greatest_spec (col : List ℝ) (h : col ≠ []) : greatest col ∈ col ∧ ∀ x ∈ col, x ≤ greatest col := by
  cases col with
  | nil => exact absurd rfl h
  | cons a l =>
    simp only [greatest, List.tail_cons, List.headD_cons]
    clear h
    induction l with
    | nil => simp
    | cons b l ih =>
      obtain ⟨h1, h2⟩ := ih
      simp only [List.foldr_cons]
      refine ⟨?_, ?_⟩
      · rcases max_choice b (l.foldr max a) with e | e <;> rw [e]
        · simp
        · rcases List.mem_cons.1 h1 with h | h
          · rw [h]; simp
          · simp [h]
      · intro x hx
        simp only [List.mem_cons] at hx
        rcases hx with rfl | rfl | hx
        · exact (h2 _ (by simp)).trans (le_max_right _ _)
        · exact le_max_left _ _
        · exact (h2 _ (by simp [hx])).trans (le_max_right _ _)

/-- **C93 (bins from the data).** Without a specification, for any column not all of one value, with `c` bins asked for (or the root of the number of elements): the bins are numbered from 0 to c - 1 (up to the next whole number), the first starting at the least element, and each value is in its bin; the greatest is in the last, if that is at least 2ε wide, though it may be its upper end. -/
theorem C93_default (col : List ℝ) (count : ℕ) (c : ℝ) (hc : c = if count = 0 then Real.sqrt col.length else count) (hr : least col < greatest col)
    (htop : 2 * eps ≤ (c - (⌈c⌉ - 1)) * ((greatest col - least col) / c)) (v : ℝ) (hv : v ∈ col) :
    ∃ k : ℤ, 0 ≤ k ∧ k ≤ ⌈c⌉ - 1 ∧ bin id (ofData col count) true v = some (least col + k * ((greatest col - least col) / c)) ∧
      least col + k * ((greatest col - least col) / c) ≤ v ∧ v ≤ least col + k * ((greatest col - least col) / c) + (greatest col - least col) / c ∧
      (v < greatest col → v < least col + k * ((greatest col - least col) / c) + (greatest col - least col) / c) ∧ (v = greatest col → k = ⌈c⌉ - 1) := by
  have hne : col ≠ [] := by rintro rfl; simp at hv
  have hlen : 0 < col.length := List.length_pos_iff.2 hne
  have hcpos : 0 < c := by
    rw [hc]
    split
    · exact Real.sqrt_pos.2 (by exact_mod_cast hlen)
    · exact_mod_cast Nat.pos_of_ne_zero ‹_›
  set R := greatest col - least col with hR
  have hRpos : 0 < R := by linarith
  set w := R / c with hw
  have hwpos : 0 < w := div_pos hRpos hcpos
  have hRw : R = c * w := by rw [hw]; field_simp
  have hs : ofData col count = ⟨w, least col, greatest col⟩ := by rw [ofData, ← hc]
  have hceil : (⌈c⌉ : ℝ) - 1 < c := by have := Int.ceil_lt_add_one c; linarith
  have hceil' : c ≤ ⌈c⌉ := Int.le_ceil c
  have hb : bin id (ofData col count) true v = some (⌊(v - least col - adjust (ofData col count) true v) / w⌋ * w + least col) := by
    unfold bin
    rw [if_neg (by rw [hs]; exact hwpos.ne'), hs]
    rfl
  have hl := (least_spec col hne).2 v hv
  have hg := (greatest_spec col hne).2 v hv
  by_cases hmax : v = greatest col
  · have ha : adjust (ofData col count) true v = 2 * eps := by
      unfold adjust
      rw [hs, if_pos ⟨rfl, hmax, by rw [hmax]; exact hr.ne'⟩]
    have hk : ⌊(v - least col - 2 * eps) / w⌋ = ⌈c⌉ - 1 := by
      rw [Int.floor_eq_iff]
      have e1 : v - least col = c * w := by rw [hmax, ← hR, hRw]
      constructor
      · push_cast
        rw [le_div_iff₀ hwpos, e1]
        nlinarith
      · push_cast
        rw [div_lt_iff₀ hwpos, e1]
        have := eps_pos
        nlinarith
    have e : (⌊(v - least col - 2 * eps) / w⌋ : ℝ) * w + least col = least col + ((⌈c⌉ - 1 : ℤ) : ℝ) * w := by rw [hk]; ring
    have e1 : v = least col + c * w := by rw [hmax, ← hRw, hR]; ring
    refine ⟨⌈c⌉ - 1, ?_, le_rfl, ?_, ?_, ?_, fun h => absurd hmax h.ne, fun _ => rfl⟩
    · have : 0 < ⌈c⌉ := Int.ceil_pos.2 hcpos
      omega
    · rw [hb, ha, e]
    · push_cast; rw [e1]; nlinarith
    · push_cast; rw [e1]; nlinarith
  · have ha : adjust (ofData col count) true v = 0 := by
      unfold adjust
      rw [hs, if_neg (fun h => hmax h.2.1)]
    have hlt : v < greatest col := lt_of_le_of_ne hg hmax
    have f1 := Int.floor_le ((v - least col) / w)
    have f2 := Int.lt_floor_add_one ((v - least col) / w)
    rw [le_div_iff₀ hwpos] at f1
    rw [div_lt_iff₀ hwpos] at f2
    refine ⟨⌊(v - least col) / w⌋, Int.floor_nonneg.2 (div_nonneg (by linarith) hwpos.le), ?_, ?_, by linarith, by linarith, fun _ => by linarith, fun h => absurd h hmax⟩
    · have : ((⌊(v - least col) / w⌋ : ℤ) : ℝ) < c := by
        have : (v - least col) / w < c := by rw [div_lt_iff₀ hwpos, ← hRw]; linarith
        exact (Int.floor_le _).trans_lt this
      have : (⌊(v - least col) / w⌋ : ℝ) < (⌈c⌉ : ℝ) := this.trans_le hceil'
      have : ⌊(v - least col) / w⌋ < ⌈c⌉ := by exact_mod_cast this
      omega
    · rw [hb, ha, sub_zero]
      congr 1
      ring

/-- **C93 (one value) fails**: a column all of one value, without a specification, is all NaN. -/
theorem C93_constant_refuted (fl : ℝ → ℝ) (col : List ℝ) (hn : col ≠ []) (x : ℝ) (h : ∀ y ∈ col, y = x) (count : ℕ) : ∀ y ∈ col, bin fl (ofData col count) true y = none := by
  intro y _
  have : (ofData col count).width = 0 := by
    simp [ofData, h _ (least_spec col hn).1, h _ (greatest_spec col hn).1]
  unfold bin
  rw [if_pos this]

/-- **C93 (closed top of given bins) fails**: with a specification and `close_top_bin='y'`, it is the value zero that is moved down a bin, whatever the data's greatest element: with bins of width w (at least 2ε) and an offset of -m w, zero is put in the bin below its own. -/
theorem C93_zero_refuted (w : ℝ) (hw : 2 * eps ≤ w) (m : ℕ) (hm : 0 < m) : bin id (ofRows [w, -(m * w)]) true 0 = some (-w) ∧ bin id (ofRows [w, -(m * w)]) false 0 = some 0 := by
  have hpos : 0 < w := by have := eps_pos; linarith
  have hm' : (0 : ℝ) < m := by exact_mod_cast hm
  constructor
  · unfold bin
    rw [if_neg (by simpa [ofRows] using hpos.ne')]
    have ha : adjust (ofRows [w, -(m * w)]) true 0 = 2 * eps := by
      unfold adjust
      rw [if_pos ⟨rfl, by simp [ofRows], by simp [ofRows]; exact ⟨hm.ne', hpos.ne'⟩⟩]
    rw [ha]
    simp only [ofRows, id]
    have hk : ⌊(0 - -(m * w) - 2 * eps) / w⌋ = (m : ℤ) - 1 := by
      rw [Int.floor_eq_iff]
      push_cast
      constructor
      · rw [le_div_iff₀ hpos]; linarith
      · rw [div_lt_iff₀ hpos]; have := eps_pos; linarith
    rw [hk]
    push_cast
    congr 1
    ring
  · unfold bin
    rw [if_neg (by simpa [ofRows] using hpos.ne')]
    simp only [ofRows, id, adjust]
    have hk : ⌊(0 - -(m * w) - 0) / w⌋ = (m : ℤ) := by
      rw [Int.floor_eq_iff]
      have : (0 - -(m * w) - 0) / w = (m : ℝ) := by field_simp; ring
      rw [this]
      push_cast
      exact ⟨le_rfl, by linarith⟩
    simp only [Bool.false_eq_true, false_and, if_false]
    rw [hk]
    push_cast
    congr 1
    ring

/-! ## Rounding -/

theorem fl53_absorbs (d : ℝ) (hd : 8 ≤ d) (hfl : fl53 d = d) : fl53 (d - 2 * eps) = d := by
  have he : 2 * eps = (2 : ℝ) ^ (-51 : ℤ) := by
    unfold eps
    rw [← zpow_natCast, inv_zpow, ← zpow_neg, ← zpow_one_add₀ (by norm_num)]
    norm_num
  have hsmall : (2 : ℝ) ^ (-51 : ℤ) ≤ 4 := by norm_num
  have hpos : (0 : ℝ) < (2 : ℝ) ^ (-51 : ℤ) := by positivity
  rw [he]
  set x := d - (2 : ℝ) ^ (-51 : ℤ) with hx
  have hx4 : 4 ≤ x := by linarith
  have hxd : x ≤ d := by linarith
  set q := Int.log 2 |x| with hq
  set p := Int.log 2 |d| with hp
  have hxa : |x| = x := abs_of_pos (by linarith)
  have hda : |d| = d := abs_of_pos (by linarith)
  have hq2 : 2 ≤ q := by
    rw [hq, hxa, ← Int.zpow_le_iff_le_log (by norm_num) (by linarith)]
    norm_num
    exact hx4
  have hqp : q ≤ p := by
    rw [hq, hp, hxa, hda]
    exact Int.log_mono_right (by linarith) hxd
  obtain ⟨k, hk⟩ : ∃ k : ℤ, d = k * (2 : ℝ) ^ (p - 52) := ⟨_, by rw [hp]; exact hfl.symm⟩
  obtain ⟨t, ht⟩ : ∃ t : ℕ, p = q + t := ⟨(p - q).toNat, by omega⟩
  set u := (2 : ℝ) ^ (q - 52) with hu
  have hupos : 0 < u := by rw [hu]; exact zpow_pos (by norm_num) _
  have hdK : d / u = ((k * 2 ^ t : ℤ) : ℝ) := by
    rw [div_eq_iff hupos.ne', hk]
    have : (2 : ℝ) ^ (p - 52) = 2 ^ t * u := by
      rw [hu, ← zpow_natCast (2 : ℝ) t, ← zpow_add₀ (by norm_num)]
      congr 1
      omega
    rw [this]
    push_cast
    ring
  have hsm : (2 : ℝ) ^ (-51 : ℤ) / u ≤ 1 / 2 := by
    rw [div_le_iff₀ hupos, hu]
    have : (2 : ℝ) ^ (-50 : ℤ) ≤ (2 : ℝ) ^ (q - 52) := zpow_le_zpow_right₀ (by norm_num) (by omega)
    have e : (2 : ℝ) ^ (-51 : ℤ) = 1 / 2 * (2 : ℝ) ^ (-50 : ℤ) := by norm_num
    rw [e]
    exact mul_le_mul_of_nonneg_left this (by norm_num)
  have hr : round (x / u) = k * 2 ^ t := by
    rw [round_eq, Int.floor_eq_iff, hx, sub_div, hdK]
    have : 0 < (2 : ℝ) ^ (-51 : ℤ) / u := div_pos hpos hupos
    constructor <;> linarith
  unfold fl53
  rw [← hq, ← hu, hr, ← hdK]
  field_simp

/-- **C93 (closed top, rounded) fails**: in double precision, for data whose range is at least 8 (and can be represented), the adjustment is lost in rounding, and the greatest element is by itself in a bin above the last. Here for `c` bins, the range and the least element such that the range is found without rounding. -/
theorem C93_top_rounded_refuted (col : List ℝ) (count : ℕ) (hc : 0 < count) (h8 : 8 ≤ greatest col - least col) (hfl : fl53 (greatest col - least col) = greatest col - least col) :
    bin fl53 (ofData col count) true (greatest col) = some (greatest col) := by
  have hpos : (0 : ℝ) < count := by exact_mod_cast hc
  have hw : (ofData col count).width = (greatest col - least col) / count := by simp [ofData, hc.ne']
  have hw0 : (ofData col count).width ≠ 0 := by
    rw [hw]
    exact div_ne_zero (by linarith) hpos.ne'
  unfold bin
  rw [if_neg hw0]
  have ha : adjust (ofData col count) true (greatest col) = 2 * eps := by
    unfold adjust
    rw [if_pos ⟨rfl, rfl, by show greatest col ≠ least col; intro h; linarith⟩]
  rw [ha]
  have : (ofData col count).offset = least col := rfl
  rw [this, hfl, fl53_absorbs _ h8 hfl, hw]
  have e : (greatest col - least col) / ((greatest col - least col) / count) = (count : ℝ) := by
    have : greatest col - least col ≠ 0 := by linarith
    field_simp
  rw [e, Int.floor_natCast]
  push_cast
  congr 1
  field_simp
  ring

/-- The hypotheses are met: the elements 0, 3, 8 with four bins. -/
theorem ex_col : least [0, 3, 8] = 0 ∧ greatest [0, 3, 8] = 8 := by
  constructor
  · norm_num [least]
  · norm_num [greatest]

theorem ex_fl : fl53 (8 : ℝ) = 8 := by
  have : Int.log 2 |(8 : ℝ)| = 3 := by
    rw [abs_of_pos (by norm_num)]
    have : (8 : ℝ) = ((2 : ℕ) : ℝ) ^ (3 : ℤ) := by norm_num
    rw [this, Int.log_zpow (by norm_num)]
  unfold fl53
  rw [this]
  have e : (8 : ℝ) / 2 ^ ((3 : ℤ) - 52) = ((2 ^ 52 : ℤ) : ℝ) := by norm_num
  rw [e, round_intCast]
  norm_num

example : bin fl53 (ofData [0, 3, 8] 4) true 8 = some 8 := by
  have := C93_top_rounded_refuted [0, 3, 8] 4 (by norm_num) (by rw [ex_col.1, ex_col.2]; norm_num) (by rw [ex_col.1, ex_col.2, sub_zero]; exact ex_fl)
  rwa [ex_col.2] at this

example : ∃ k : ℤ, 0 ≤ k ∧ k ≤ ⌈(4 : ℝ)⌉ - 1 ∧ bin id (ofData [0, 3, 8] 4) true 8 = some (0 + k * 2) := by
  obtain ⟨k, h1, h2, h3, _⟩ := C93_default [0, 3, 8] 4 4 (by norm_num) (by rw [ex_col.1, ex_col.2]; norm_num) (by
    rw [ex_col.1, ex_col.2]
    have : ⌈(4 : ℝ)⌉ = 4 := by exact_mod_cast Int.ceil_intCast (4 : ℤ)
    rw [this]
    unfold eps
    norm_num) 8 (by simp)
  refine ⟨k, h1, h2, ?_⟩
  rw [h3, ex_col.1, ex_col.2]
  norm_num

end Apop.Bins
