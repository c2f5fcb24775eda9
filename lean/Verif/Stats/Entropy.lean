import Verif.Stats.Moments
import Mathlib.Analysis.SpecialFunctions.Log.Basic

/-! # C61: the entropy of a vector

Exact arithmetic over the reals; NaN is `none`. -/

namespace Apop.Stats
open Real

/-- The loop of `apop_vector_entropy`, apop_stats.m4.c:648-653: a negative share ends it with NaN, a share of zero is passed over. -/
noncomputable def entropyLoop (sum : ℝ) : List ℝ → ℝ → Option ℝ
  | [], out => some out
  | x :: v, out =>
    if x / sum < 0 then none
    else if x / sum = 0 then entropyLoop sum v out
    else entropyLoop sum v (out - log (x / sum) * (x / sum))

/-- `apop_vector_entropy`, apop_stats.m4.c:637-655; NULL is `none`. -/
noncomputable def vectorEntropy (v : Option (List ℝ)) : Option ℝ :=
  match v with
  | none => some 0
  | some v =>
    if v = [] then some 0
    else if vectorSum v < 0 then none
    else if vectorSum v = 0 then some 0
    else entropyLoop (vectorSum v) v 0

/-! ## Specification -/

/-- The shares of the total. -/
noncomputable def shares (v : List ℝ) : List ℝ := v.map (· / v.sum)

/-- −Σ p log p over the positive shares. -/
noncomputable def entropySpec (v : List ℝ) : ℝ := ((shares v).map (fun p => if 0 < p then -(p * log p) else 0)).sum

/-! ## Proofs -/

theorem entropyLoop_eq {S : ℝ} (hS : 0 < S) : ∀ (v : List ℝ) (out : ℝ), (∀ x ∈ v, 0 ≤ x) →
    entropyLoop S v out = some (out + ((v.map (· / S)).map (fun p => if 0 < p then -(p * log p) else 0)).sum)
  | [], out, _ => by simp [entropyLoop]
  | x :: v, out, h => by
    have hx := h x (by simp)
    have ih := fun o => entropyLoop_eq hS v o (fun y hy => h y (List.mem_cons_of_mem _ hy))
    rw [entropyLoop, if_neg (not_lt.2 (div_nonneg hx hS.le))]
    by_cases h0 : x / S = 0
    · rw [if_pos h0, ih]
      simp [h0]
    · rw [if_neg h0, ih]
      have : 0 < x / S := lt_of_le_of_ne (div_nonneg hx hS.le) (Ne.symm h0)
      simp only [List.map_cons, List.sum_cons, if_pos this]
      congr 1
      ring

/-- **C61 (value).** Counts or frequencies, none negative, not all zero: −Σ p log p over the shares p = x/Σx that are not zero. -/
theorem C61_value (v : List ℝ) (h : ∀ x ∈ v, 0 ≤ x) (hs : 0 < v.sum) : vectorEntropy (some v) = some (entropySpec v) := by
  have hv : v ≠ [] := by rintro rfl; simp at hs
  simp only [vectorEntropy, hv, if_false, vectorSum_eq, not_lt.2 hs.le, hs.ne', entropyLoop_eq hs v 0 h, zero_add]
  rfl

/-- **C61 (nothing).** NULL, no elements, or all zero: zero. -/
theorem C61_empty (n : ℕ) : vectorEntropy none = some 0 ∧ vectorEntropy (some (List.replicate n 0)) = some 0 := by
  refine ⟨rfl, ?_⟩
  simp [vectorEntropy, vectorSum_eq]

theorem entropyLoop_neg {S : ℝ} (hS : 0 < S) : ∀ (v : List ℝ) (out : ℝ), (∃ x ∈ v, x < 0) → entropyLoop S v out = none
  | [], _, h => by simp at h
  | x :: v, out, h => by
    rw [entropyLoop]
    by_cases hx : x / S < 0
    · rw [if_pos hx]
    · rw [if_neg hx]
      have hv : ∃ y ∈ v, y < 0 := by
        obtain ⟨y, hy, hy0⟩ := h
        rcases List.mem_cons.1 hy with rfl | hy
        · exact absurd (div_neg_of_neg_of_pos hy0 hS) hx
        · exact ⟨y, hy, hy0⟩
      split <;> exact entropyLoop_neg hS v _ hv

/-- **C61 (negative elements).** NaN, unless the elements sum to zero. -/
theorem C61_negative (v : List ℝ) (h : ∃ x ∈ v, x < 0) (hs : v.sum ≠ 0) : vectorEntropy (some v) = none := by
  have hv : v ≠ [] := by rintro rfl; simp at h
  simp only [vectorEntropy, hv, if_false, vectorSum_eq, hs]
  by_cases h0 : v.sum < 0
  · rw [if_pos h0]
  · rw [if_neg h0]
    exact entropyLoop_neg (lt_of_le_of_ne (not_lt.1 h0) (Ne.symm hs)) v 0 h

/-- A vector with negative elements that sums to zero is not reported, as documented, by NaN: the entropy is zero. -/
theorem C61_negative_zero_sum (v : List ℝ) (hs : v.sum = 0) : vectorEntropy (some v) = some 0 := by
  simp only [vectorEntropy, vectorSum_eq, hs, lt_irrefl, if_false, if_true, ite_self]

/-- **C61 (scale).** Counts and frequencies give the same. -/
theorem C61_scale (v : List ℝ) (c : ℝ) (hc : 0 < c) (h : ∀ x ∈ v, 0 ≤ x) (hs : 0 < v.sum) : vectorEntropy (some (v.map (c * ·))) = vectorEntropy (some v) := by
  have h1 : (v.map (c * ·)).sum = c * v.sum := List.sum_map_mul_left ..|>.trans (by simp)
  rw [C61_value v h hs, C61_value _ (by intro x hx; obtain ⟨y, hy, rfl⟩ := List.mem_map.1 hx; exact mul_nonneg hc.le (h y hy)) (by rw [h1]; positivity)]
  congr 1
  unfold entropySpec shares
  have h2 : (v.map (c * ·)).map (· / (c * v.sum)) = v.map (· / v.sum) := by
    rw [List.map_map]
    apply List.map_congr_left
    intro x _
    simp only [Function.comp]
    rw [mul_div_mul_left _ _ hc.ne']
  rw [h1, h2]

/-- **C61 (order).** The order of the elements does not matter. -/
theorem C61_perm (v u : List ℝ) (hp : v.Perm u) (h : ∀ x ∈ v, 0 ≤ x) (hs : 0 < v.sum) : vectorEntropy (some v) = vectorEntropy (some u) := by
  have hsum : v.sum = u.sum := hp.sum_eq
  rw [C61_value v h hs, C61_value u (fun x hx => h x (hp.mem_iff.2 hx)) (hsum ▸ hs)]
  congr 1
  unfold entropySpec shares
  rw [hsum]
  exact ((hp.map _).map _).sum_eq

theorem shares_facts (v : List ℝ) (h : ∀ x ∈ v, 0 ≤ x) (hs : 0 < v.sum) : (shares v).sum = 1 ∧ ∀ p ∈ shares v, 0 ≤ p ∧ p ≤ 1 := by
  have h1 : (shares v).sum = 1 := by
    have : (shares v).sum = v.sum * (1 / v.sum) := by
      unfold shares
      have e : (fun x : ℝ => x / v.sum) = fun x => x * (1 / v.sum) := by funext x; ring
      rw [e, List.sum_map_mul_right]
      simp
    rw [this]; field_simp
  refine ⟨h1, fun p hp => ?_⟩
  obtain ⟨x, hx, rfl⟩ := List.mem_map.1 hp
  refine ⟨div_nonneg (h x hx) hs.le, (div_le_one hs).2 (List.single_le_sum h x hx)⟩

theorem entropy_upper (k : ℝ) (hk : 0 < k) : ∀ ps : List ℝ, (∀ p ∈ ps, 0 ≤ p) →
    (ps.map (fun p => if 0 < p then -(p * log p) else 0)).sum ≤ ps.sum * log k + (ps.countP (0 < ·) : ℝ) / k - ps.sum
  | [], _ => by simp
  | p :: ps, h => by
    have ih := entropy_upper k hk ps (fun q hq => h q (List.mem_cons_of_mem _ hq))
    simp only [List.map_cons, List.sum_cons, List.countP_cons]
    by_cases hp : 0 < p
    · have hlog : log (1 / (p * k)) ≤ 1 / (p * k) - 1 := log_le_sub_one_of_pos (by positivity)
      rw [log_div one_ne_zero (by positivity), log_one, log_mul hp.ne' hk.ne'] at hlog
      have := mul_le_mul_of_nonneg_left hlog hp.le
      have e : p * (1 / (p * k) - 1) = 1 / k - p := by field_simp
      rw [e] at this
      simp only [hp, if_true, decide_true]
      push_cast
      rw [add_div]
      linarith
    · have : p = 0 := le_antisymm (not_lt.1 hp) (h p (by simp))
      subst this
      simp
      linarith

/-- **C61 (bounds).** The entropy is at least zero and at most the log of the number of positive elements, so of the number of elements. -/
theorem C61_bounds (v : List ℝ) (h : ∀ x ∈ v, 0 ≤ x) (hs : 0 < v.sum) :
    ∃ e, vectorEntropy (some v) = some e ∧ 0 ≤ e ∧ e ≤ log (v.countP (0 < ·)) ∧ e ≤ log v.length := by
  obtain ⟨h1, h2⟩ := shares_facts v h hs
  have hcount : (shares v).countP (0 < ·) = v.countP (0 < ·) := by
    unfold shares
    rw [List.countP_map]
    apply List.countP_congr
    intro x _
    simp [div_pos_iff, hs, not_lt.2 hs.le]
  have hpos : 0 < v.countP (0 < ·) := by
    rw [Nat.pos_iff_ne_zero]
    intro h0
    rw [List.countP_eq_zero] at h0
    have : v.sum = 0 := List.sum_eq_zero (fun x hx => le_antisymm (by simpa using h0 x hx) (h x hx))
    linarith
  have hk : (0 : ℝ) < v.countP (0 < ·) := by exact_mod_cast hpos
  have hup := entropy_upper _ hk (shares v) (fun p hp => (h2 p hp).1)
  rw [h1, hcount, div_self hk.ne'] at hup
  refine ⟨_, C61_value v h hs, ?_, ?_, ?_⟩
  · apply List.sum_nonneg
    intro z hz
    obtain ⟨p, hp, rfl⟩ := List.mem_map.1 hz
    split
    · rename_i hp0
      have := log_nonpos hp0.le (h2 p hp).2
      nlinarith
    · exact le_refl _
  · unfold entropySpec; linarith
  · have : log (v.countP (0 < ·) : ℝ) ≤ log v.length := log_le_log hk (by exact_mod_cast List.countP_le_length)
    unfold entropySpec; linarith

/-- **C61 (the bound is reached).** `n` equal elements: log n. -/
theorem C61_uniform (n : ℕ) (x : ℝ) (hx : 0 < x) : vectorEntropy (some (List.replicate (n + 1) x)) = some (log ((n + 1 : ℕ) : ℝ)) := by
  have hn : (0 : ℝ) < ((n + 1 : ℕ) : ℝ) := by positivity
  have hs : (List.replicate (n + 1) x).sum = ((n + 1 : ℕ) : ℝ) * x := by rw [List.sum_replicate, nsmul_eq_mul]
  rw [C61_value _ (fun y hy => by rw [List.eq_of_mem_replicate hy]; exact hx.le) (by rw [hs]; positivity)]
  unfold entropySpec shares
  rw [hs, List.map_replicate, List.map_replicate, List.sum_replicate, nsmul_eq_mul]
  have e : x / (((n + 1 : ℕ) : ℝ) * x) = (((n + 1 : ℕ) : ℝ))⁻¹ := by field_simp
  rw [e, if_pos (by positivity), log_inv]
  congr 1
  field_simp

/-- One category: zero. -/
example : vectorEntropy (some [0, 7, 0]) = some 0 := by
  rw [C61_value _ (by intro x hx; simp at hx; rcases hx with rfl | rfl | rfl <;> norm_num) (by norm_num)]
  norm_num [entropySpec, shares]

end Apop.Stats
