import Verif.Base.C
import Mathlib.Data.Real.Basic
import Mathlib.Algebra.BigOperators.Intervals
import Mathlib.Data.List.Basic
import Mathlib.Data.List.GetD
import Mathlib.Algebra.Order.BigOperators.Group.Finset
import Mathlib.Tactic.IntervalCases
import Mathlib.Tactic.Linarith
import Mathlib.Tactic.FieldSimp
import Mathlib.Tactic.Ring

/-! # C92: moving averages -/

namespace Apop.MovAvg
open Finset

/-! ## The model (exact arithmetic) -/

/-- The inner loop, apop_hist.m4.c:375-376: `m` more elements from `pos` on are added. -/
def addUp (v : List ℝ) : ℝ → ℕ → ℕ → Res ℝ
  | item, _, 0 => .ok item
  | item, pos, m + 1 => (rd v pos).bind fun x => addUp v (item + x) (pos + 1) m

/-- The outer loop, apop_hist.m4.c:373-378: elements from `i` on, `m` of them. -/
noncomputable def fill (v : List ℝ) (h : ℕ) : ℕ → ℕ → Res (List ℝ)
  | _, 0 => .ok []
  | i, m + 1 => (addUp v 0 i (2 * h + 1)).bind fun s => (fill v h (i + 1) m).bind fun rest => .ok (s / (2 * h + 1 : ℕ) :: rest)

/-- The size as computed, line 371: `size_t` arithmetic, modulo 2^64. -/
def outSize (len h : ℕ) : ℕ := (len + 2 ^ 64 - h * 2) % 2 ^ 64

/-- `apop_vector_moving_average`, apop_hist.m4.c:366-380. The vector has fewer than 2^60 elements, and half the bandwidth (an `int`) is below 2^30; a size of 2^60 or more can't be allocated, which ends in GSL's error handler or the use of a null pointer. -/
noncomputable def movingAverage (v : Option (List ℝ)) (bw : ℕ) : Res (Option (List ℝ)) :=
  match v with
  | none => .ok none
  | some v =>
    if bw = 0 then .ok (some v)
    else if outSize v.length (bw / 2) = 0 then .ok none
    else if 2 ^ 60 ≤ outSize v.length (bw / 2) then .ub
    else (fill v (bw / 2) 0 (outSize v.length (bw / 2))).bind fun o => .ok (some o)

/-! ## Proofs -/

theorem addUp_eq (v : List ℝ) : ∀ (m : ℕ) (item : ℝ) (pos : ℕ), pos + m ≤ v.length → addUp v item pos m = .ok (item + ∑ j ∈ range m, v.getD (pos + j) 0) := by
  intro m
  induction m with
  | zero => intro item pos _; simp [addUp]
  | succ m ih =>
    intro item pos h
    rw [addUp, rd_of_lt (by omega)]
    simp only [Res.bind]
    rw [ih _ _ (by omega), Finset.sum_range_succ']
    have e : v.getD (pos + 0) 0 = v[pos]'(by omega) := by simp [List.getD_eq_getElem?_getD, show pos < v.length by omega]
    rw [e]
    congr 1
    rw [add_assoc, add_comm (∑ j ∈ range m, _)]
    congr 2
    exact Finset.sum_congr rfl fun j _ => by rw [show pos + 1 + j = pos + (j + 1) by omega]

theorem fill_eq (v : List ℝ) (h : ℕ) : ∀ (m i : ℕ), i + m + 2 * h ≤ v.length →
    fill v h i m = .ok ((List.range m).map fun k => (∑ j ∈ range (2 * h + 1), v.getD (i + k + j) 0) / (2 * h + 1 : ℕ)) := by
  intro m
  induction m with
  | zero => intro i _; simp [fill]
  | succ m ih =>
    intro i hi
    rw [fill, addUp_eq v _ _ _ (by omega)]
    simp only [Res.bind]
    rw [ih (i + 1) (by omega)]
    simp only [Res.bind, List.range_succ_eq_map, List.map_cons, List.map_map, zero_add, Nat.add_zero]
    congr 3
    funext k
    simp only [Function.comp]
    rw [show i + 1 + k = i + k.succ by omega]

theorem outSize_eq (len h : ℕ) (hl : len < 2 ^ 60) (hh : 2 * h ≤ len) : outSize len h = len - 2 * h := by
  unfold outSize
  rw [show len + 2 ^ 64 - h * 2 = (len - 2 * h) + 2 ^ 64 by omega, Nat.add_mod_right, Nat.mod_eq_of_lt (by omega)]

/-- **C92.** For any vector and any bandwidth of at least one whose window is no longer than the vector: there are as many elements as there are windows, and each is the mean of its window — of the bandwidth, if that is odd. -/
theorem C92_value (v : List ℝ) (hv : v.length < 2 ^ 60) (bw : ℕ) (hb : 1 ≤ bw) (hw : bw / 2 * 2 < v.length) :
    ∃ o, movingAverage (some v) bw = .ok (some o) ∧ o.length = v.length - bw / 2 * 2 ∧
      ∀ i < o.length, o.getD i 0 = (∑ j ∈ range (bw / 2 * 2 + 1), v.getD (i + j) 0) / (bw / 2 * 2 + 1 : ℕ) := by
  unfold movingAverage
  have e := outSize_eq v.length (bw / 2) hv (by omega)
  simp only [if_neg (show ¬ bw = 0 by omega)]
  rw [e, if_neg (by omega), if_neg (by omega), fill_eq v (bw / 2) _ 0 (by omega)]
  refine ⟨_, rfl, by simp [mul_comm], ?_⟩
  intro i hi
  simp only [List.length_map, List.length_range] at hi
  have e2 : 2 * (bw / 2) = bw / 2 * 2 := by omega
  rw [e2] at hi
  simp [List.getD_eq_getElem?_getD, hi, e2]

/-- For an odd bandwidth the window is the bandwidth; for an even one it is one more, so that "the number of elements to be averaged" is not as documented. -/
theorem C92_window (bw : ℕ) : bw / 2 * 2 + 1 = if bw % 2 = 1 then bw else bw + 1 := by
  split <;> omega

/-- **C92 (bounds).** Each element is between any bounds on the vector's. -/
theorem C92_between (v : List ℝ) (hv : v.length < 2 ^ 60) (bw : ℕ) (hb : 1 ≤ bw) (hw : bw / 2 * 2 < v.length) (lo hi : ℝ) (h : ∀ x ∈ v, lo ≤ x ∧ x ≤ hi) (o : List ℝ) (ho : movingAverage (some v) bw = .ok (some o)) :
    ∀ x ∈ o, lo ≤ x ∧ x ≤ hi := by
  obtain ⟨o', h1, h2, h3⟩ := C92_value v hv bw hb hw
  rw [h1] at ho
  cases ho
  intro x hx
  obtain ⟨i, hi', rfl⟩ := List.getElem_of_mem hx
  have e := h3 i hi'
  rw [List.getD_eq_getElem _ _ hi'] at e
  rw [e]
  have hm : ∀ j ∈ range (bw / 2 * 2 + 1), lo ≤ v.getD (i + j) 0 ∧ v.getD (i + j) 0 ≤ hi := by
    intro j hj
    have : i + j < v.length := by have := mem_range.1 hj; omega
    rw [List.getD_eq_getElem _ _ this]
    exact h _ (List.getElem_mem this)
  have c : (0 : ℝ) < (bw / 2 * 2 + 1 : ℕ) := by positivity
  constructor
  · rw [le_div_iff₀ c]
    have := Finset.card_nsmul_le_sum (range (bw / 2 * 2 + 1)) (fun j => v.getD (i + j) 0) lo (fun j hj => (hm j hj).1)
    rw [card_range, nsmul_eq_mul] at this
    linarith
  · rw [div_le_iff₀ c]
    have := Finset.sum_le_card_nsmul (range (bw / 2 * 2 + 1)) (fun j => v.getD (i + j) 0) hi (fun j hj => (hm j hj).2)
    rw [card_range, nsmul_eq_mul] at this
    linarith

/-- A bandwidth of one, or zero, gives the vector itself. -/
theorem C92_one (v : List ℝ) (hv : v.length < 2 ^ 60) (hn : v ≠ []) (bw : ℕ) (hb : bw ≤ 1) : movingAverage (some v) bw = .ok (some v) := by
  interval_cases bw
  · simp [movingAverage]
  · obtain ⟨o, h1, h2, h3⟩ := C92_value v hv 1 le_rfl (by simpa using List.length_pos_iff.2 hn)
    rw [h1]
    have e : o = v := ?_
    · rw [e]
    refine List.ext_getElem (by simpa using h2) fun i hi hi' => ?_
    have := h3 i hi
    rw [List.getD_eq_getElem _ _ hi] at this
    simpa [List.getElem?_eq_getElem hi'] using this

/-- **C92 (too wide) fails**: with a window longer than the vector by more than one, NULL should be returned; but sizes are unsigned, and the result is always the attempt to allocate some 2^64 elements. -/
theorem C92_wide_refuted (v : List ℝ) (hv : v.length < 2 ^ 60) (bw : ℕ) (hb : bw < 2 ^ 31) (hw : v.length < bw / 2 * 2) : movingAverage (some v) bw = .ub := by
  unfold movingAverage
  have e : outSize v.length (bw / 2) = v.length + 2 ^ 64 - bw / 2 * 2 := by
    unfold outSize; rw [Nat.mod_eq_of_lt (by omega)]
  simp only [if_neg (show ¬ bw = 0 by omega), e]
  rw [if_neg (by omega), if_pos (by omega)]

/-- The window longer by just one: NULL. -/
theorem C92_null (v : List ℝ) (hv : v.length < 2 ^ 60) (bw : ℕ) (hb : 1 ≤ bw) (hw : v.length = bw / 2 * 2) : movingAverage (some v) bw = .ok none := by
  unfold movingAverage
  simp only [if_neg (show ¬ bw = 0 by omega)]
  rw [outSize_eq v.length (bw / 2) hv (by omega), if_pos (by omega)]

/-- The hypotheses are met: five elements, bandwidths 3 and 2 alike. -/
example : movingAverage (some [1, 2, 6, 4, 8]) 3 = .ok (some [3, 4, 6]) ∧ movingAverage (some [1, 2, 6, 4, 8]) 2 = .ok (some [3, 4, 6]) := by
  constructor <;> (simp [movingAverage, outSize, fill, addUp, rd, Res.bind]; norm_num)

example : movingAverage (some [1, 2]) 4 = .ub := C92_wide_refuted _ (by simp) 4 (by norm_num) (by simp)

end Apop.MovAvg
