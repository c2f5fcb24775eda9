import Verif.Stats.Variance
import Mathlib.Analysis.SpecialFunctions.Pow.Real
import Mathlib.Data.List.MinMax

/-! # C59: apop_vector_normalize

Exact arithmetic over the reals. -/

namespace Apop.Stats
open Real

/-- `gsl_vector_minmax` (GSL), by a loop over the elements. -/
noncomputable def minmax : List ℝ → Option (ℝ × ℝ)
  | [] => none
  | x :: v => some (v.foldl (fun (a : ℝ × ℝ) y => (min a.1 y, max a.2 y)) (x, x))

/-- Type 's', apop_stats.m4.c:278-285. If the scale is not finite, the vector is left with its mean subtracted. -/
noncomputable def normS (v : List ℝ) : List ℝ :=
  match vectorMean (some v) none with
  | none => v
  | some mu =>
    match (gslVarM (v.map (· + -mu)) 0).bind (fun s => cdiv 1 (√s)) with
    | none => v.map (· + -mu)
    | some scaling => (v.map (· + -mu)).map (· * scaling)

/-- Type 'r', apop_stats.m4.c:286-291. `none` if elements become NaN or a vector of no elements is read. -/
noncomputable def normR (v : List ℝ) : Option (List ℝ) := do
  let (mn, mx) ← minmax v
  let c ← cdiv 1 (mx - mn)
  some ((v.map (· + -mn)).map (· * c))

/-- Type 'p', apop_stats.m4.c:292-296. -/
noncomputable def normP (v : List ℝ) : List ℝ := if vectorSum v = 0 then v else v.map (· * (1 / vectorSum v))

/-- Type 'm', apop_stats.m4.c:297-301. -/
noncomputable def normM (v : List ℝ) : List ℝ :=
  match vectorMean (some v) none with
  | none => v
  | some mu => v.map (· + -mu)

/-- By type, apop_stats.m4.c:278-301; any other type changes nothing. -/
noncomputable def normOf (v : List ℝ) (type : Char) : Option (List ℝ) :=
  if type = 's' then some (normS v) else if type = 'r' then normR v else if type = 'p' then some (normP v)
  else if type = 'm' then some (normM v) else some v

/-- `apop_vector_normalize`, apop_stats.m4.c:266-302: the input vector afterwards, and the vector the result is in. With `out` given (and the input not NULL), a copy is worked on. -/
noncomputable def normalize (v : List ℝ) (hasOut : Bool) (type : Char) : Option (List ℝ × List ℝ) :=
  (normOf v type).map (fun r => (if hasOut then v else r, r))

/-! ## Proofs -/

/-- **C59 (where the result goes).** With `out` the input is left as it was; without, the input becomes the result. -/
theorem C59_out {v r i : List ℝ} {hasOut : Bool} {type : Char} (h : normalize v hasOut type = some (i, r)) :
    normOf v type = some r ∧ (hasOut = true → i = v) ∧ (hasOut = false → i = r) := by
  unfold normalize at h
  cases hn : normOf v type with
  | none => simp [hn] at h
  | some x =>
    simp only [hn, Option.map_some, Option.some.injEq, Prod.mk.injEq] at h
    obtain ⟨h1, h2⟩ := h
    subst h2
    exact ⟨rfl, fun hh => by simpa [hh] using h1.symm, fun hh => by simpa [hh] using h1.symm⟩

theorem sum_map_mul_const (v : List ℝ) (c : ℝ) : (v.map (· * c)).sum = v.sum * c := List.sum_map_mul_right ..|>.trans (by simp)

theorem sum_map_add_const (v : List ℝ) (c : ℝ) : (v.map (· + c)).sum = v.sum + v.length * c := by
  induction v with
  | nil => simp
  | cons x v ih => simp only [List.map_cons, List.sum_cons, ih, List.length_cons]; push_cast; ring

/-- **C59 ('p').** If the vector does not sum to zero, each element is its share and the result sums to one. -/
theorem C59_sum_one (v : List ℝ) (h : v.sum ≠ 0) : normOf v 'p' = some (v.map (fun x => x / v.sum)) ∧ (v.map (fun x => x / v.sum)).sum = 1 := by
  have e : (fun x => x / v.sum) = (fun x : ℝ => x * (1 / v.sum)) := by funext x; ring
  constructor
  · simp [normOf, normP, vectorSum_eq, h, e]
  · rw [e, sum_map_mul_const]; field_simp

/-- A vector that sums to zero is left alone. -/
theorem C59_sum_zero (v : List ℝ) (h : v.sum = 0) : normOf v 'p' = some v := by simp [normOf, normP, vectorSum_eq, h]

theorem minmax_go (v : List ℝ) : ∀ a : ℝ × ℝ, let m := v.foldl (fun (a : ℝ × ℝ) y => (min a.1 y, max a.2 y)) a
    (m.1 ≤ a.1 ∧ (∀ y ∈ v, m.1 ≤ y) ∧ (m.1 = a.1 ∨ m.1 ∈ v)) ∧ (a.2 ≤ m.2 ∧ (∀ y ∈ v, y ≤ m.2) ∧ (m.2 = a.2 ∨ m.2 ∈ v)) := by
  induction v with
  | nil => intro a; simp
  | cons x v ih =>
    intro a
    have := ih (min a.1 x, max a.2 x)
    simp only [List.foldl_cons, List.mem_cons] at this ⊢
    obtain ⟨⟨h1, h2, h3⟩, h4, h5, h6⟩ := this
    refine ⟨⟨h1.trans (min_le_left _ _), ?_, ?_⟩, (le_max_left _ _).trans h4, ?_, ?_⟩
    · rintro y (rfl | hy)
      · exact h1.trans (min_le_right _ _)
      · exact h2 y hy
    · rcases h3 with h3 | h3
      · rcases min_choice a.1 x with hc | hc
        · left; rw [h3, hc]
        · right; left; rw [h3, hc]
      · right; right; exact h3
    · rintro y (rfl | hy)
      · exact (le_max_right _ _).trans h4
      · exact h5 y hy
    · rcases h6 with h6 | h6
      · rcases max_choice a.2 x with hc | hc
        · left; rw [h6, hc]
        · right; left; rw [h6, hc]
      · right; right; exact h6

/-- What the minimum and maximum are. -/
theorem minmax_spec {v : List ℝ} {mn mx : ℝ} (h1 : mn ∈ v) (h2 : ∀ y ∈ v, mn ≤ y) (h3 : mx ∈ v) (h4 : ∀ y ∈ v, y ≤ mx) : minmax v = some (mn, mx) := by
  cases v with
  | nil => simp at h1
  | cons x v =>
    have := minmax_go v (x, x)
    simp only [minmax, Option.some.injEq] at this ⊢
    obtain ⟨⟨a1, a2, a3⟩, a4, a5, a6⟩ := this
    refine Prod.ext ?_ ?_
    · apply le_antisymm
      · rcases List.mem_cons.1 h1 with rfl | h
        · exact a1
        · exact a2 _ h
      · rcases a3 with h | h
        · rw [h]; exact h2 x (by simp)
        · exact h2 _ (by simp [h])
    · apply le_antisymm
      · rcases a6 with h | h
        · rw [h]; exact h4 x (by simp)
        · exact h4 _ (by simp [h])
      · rcases List.mem_cons.1 h3 with rfl | h
        · exact a4
        · exact a5 _ h

/-- **C59 ('r').** With minimum `mn` and maximum `mx` different, each `x` becomes `(x - mn)/(mx - mn)`; the result is within [0,1], and reaches both ends. -/
theorem C59_range (v : List ℝ) {mn mx : ℝ} (h1 : mn ∈ v) (h2 : ∀ y ∈ v, mn ≤ y) (h3 : mx ∈ v) (h4 : ∀ y ∈ v, y ≤ mx) (hne : mn ≠ mx) :
    ∃ r, normOf v 'r' = some r ∧ r = v.map (fun x => (x - mn) / (mx - mn)) ∧ (∀ y ∈ r, 0 ≤ y ∧ y ≤ 1) ∧ 0 ∈ r ∧ 1 ∈ r := by
  have hd : mx - mn ≠ 0 := sub_ne_zero.2 (Ne.symm hne)
  have hpos : 0 < mx - mn := lt_of_le_of_ne (sub_nonneg.2 (h2 mx h3)) (Ne.symm hd)
  refine ⟨_, ?_, rfl, ?_, ?_, ?_⟩
  · simp only [normOf, normR, minmax_spec h1 h2 h3 h4, cdiv, if_neg hd, Option.bind_eq_bind, Option.bind_some]
    rw [if_neg (by decide), if_pos trivial]
    simp only [List.map_map, Option.some.injEq]
    apply List.map_congr_left
    intro x _
    simp only [Function.comp]
    ring
  · intro y hy
    obtain ⟨x, hx, rfl⟩ := List.mem_map.1 hy
    exact ⟨div_nonneg (sub_nonneg.2 (h2 x hx)) hpos.le, (div_le_one hpos).2 (by linarith [h4 x hx])⟩
  · exact List.mem_map.2 ⟨mn, h1, by simp⟩
  · exact List.mem_map.2 ⟨mx, h3, div_self hd⟩

/-- A constant vector is not caught: 0/0. -/
theorem C59_range_constant (n : ℕ) (x : ℝ) : normOf (List.replicate (n + 1) x) 'r' = none := by
  have h := minmax_spec (v := List.replicate (n + 1) x) (mn := x) (mx := x) (by simp) (fun y hy => by rw [List.eq_of_mem_replicate hy]) (by simp)
    (fun y hy => by rw [List.eq_of_mem_replicate hy])
  simp [normOf, normR, h, cdiv]

/-- **C59 ('m').** -/
theorem C59_mean_zero (v : List ℝ) (hv : v ≠ []) : ∃ r, normOf v 'm' = some r ∧ r = v.map (fun x => x - v.sum / v.length) ∧ vectorMean (some r) none = some 0 := by
  have hn : ((v.length : ℕ) : ℝ) ≠ 0 := by rw [Nat.cast_ne_zero, ne_eq, List.length_eq_zero_iff]; exact hv
  refine ⟨_, ?_, rfl, ?_⟩
  · simp [normOf, normM, C51_mean v hv, sub_eq_add_neg]
  · rw [C51_mean _ (by simpa using hv)]
    simp only [sub_eq_add_neg, sum_map_add_const, List.length_map]
    congr 1
    field_simp
    ring

/-- The sum of squares around the mean is positive if two elements differ. -/
theorem sumsq_pos {v : List ℝ} (c : ℝ) (h : ∃ x ∈ v, x ≠ c) : 0 < (v.map (fun x => (x - c) ^ 2)).sum := by
  induction v with
  | nil => simp at h
  | cons y v ih =>
    simp only [List.map_cons, List.sum_cons]
    have hnn : 0 ≤ (v.map (fun x => (x - c) ^ 2)).sum := List.sum_nonneg (fun z hz => by obtain ⟨x, _, rfl⟩ := List.mem_map.1 hz; positivity)
    by_cases hy : y = c
    · have : 0 < (v.map (fun x => (x - c) ^ 2)).sum := ih (by
        obtain ⟨x, hx, hne⟩ := h
        rcases List.mem_cons.1 hx with rfl | hx
        · exact absurd hy hne
        · exact ⟨x, hx, hne⟩)
      have := sq_nonneg (y - c)
      linarith
    · have : 0 < (y - c) ^ 2 := by have := sub_ne_zero.2 hy; positivity
      linarith

theorem sum_map_sub (v : List ℝ) (c : ℝ) : (v.map (fun x => x - c)).sum = v.sum - v.length * c := by
  simp only [sub_eq_add_neg, sum_map_add_const]; ring

/-- **C59 ('s').** If two elements differ, then each `x` becomes `(x - mean)/sd`, and the result has mean zero and sample variance one. -/
theorem C59_standard (v : List ℝ) {a b : ℝ} (ha : a ∈ v) (hb : b ∈ v) (hab : a ≠ b) : ∃ r var, vectorVar (some v) none = some var ∧ 0 < var ∧ normOf v 's' = some r ∧
    r = v.map (fun x => (x - v.sum / v.length) / √var) ∧ vectorMean (some r) none = some 0 ∧ vectorVar (some r) none = some 1 := by
  have hv : v ≠ [] := by rintro rfl; simp at ha
  have h2 : 2 ≤ v.length := by
    match v with
    | [] => simp at ha
    | [x] => simp at ha hb; exact absurd (ha.trans hb.symm) hab
    | _ :: _ :: _ => simp
  obtain ⟨n1, n2, n3⟩ := nat_ge_two (K := ℝ) h2
  have hn1 : 0 < (v.length : ℝ) - 1 := by
    have : (2 : ℝ) ≤ v.length := by exact_mod_cast h2
    linarith
  set μ := v.sum / v.length with hμ
  set S := (v.map (fun x => (x - μ) ^ 2)).sum with hS
  have hSpos : 0 < S := by
    apply sumsq_pos
    by_cases h : a = μ
    · exact ⟨b, hb, fun e => hab (h.trans e.symm)⟩
    · exact ⟨a, ha, h⟩
  set var := S / ((v.length : ℝ) - 1) with hvar
  have hvpos : 0 < var := div_pos hSpos hn1
  have hsq : √var ≠ 0 := (Real.sqrt_pos.2 hvpos).ne'
  have hsum0 : (v.map (fun x => (x - μ) / √var)).sum = 0 := by
    have : (fun x => (x - μ) / √var) = (fun y : ℝ => y * (1 / √var)) ∘ (fun x : ℝ => x - μ) := by funext x; simp; ring
    rw [this, ← List.map_map, sum_map_mul_const, sum_map_sub, hμ]
    field_simp
    ring
  refine ⟨_, var, C52_var v h2, hvpos, ?_, rfl, ?_, ?_⟩
  · have e1 : gslVarM (v.map (· + -μ)) 0 = some var := by
      simp only [gslVarM, List.map_map, List.length_map, cdiv, if_neg n3]
      congr 2
      simp only [hS]
      congr 1
      apply List.map_congr_left
      intro x _
      simp only [Function.comp]
      ring
    simp only [normOf, normS, C51_mean v hv, ← hμ, e1, Option.bind_some, cdiv, if_neg hsq, if_true]
    simp only [List.map_map, Option.some.injEq]
    apply List.map_congr_left
    intro x _
    simp only [Function.comp]
    ring
  · rw [C51_mean _ (by simpa using hv), hsum0]; simp
  · rw [C52_var _ (by simpa using h2), hsum0, List.length_map]
    congr 1
    rw [div_eq_one_iff_eq n3]
    have : (List.map (fun x => (x - 0 / (v.length : ℝ)) ^ 2) (v.map (fun x => (x - μ) / √var))) = (v.map (fun x => (x - μ) ^ 2)).map (· * (1 / var)) := by
      simp only [List.map_map]
      apply List.map_congr_left
      intro x _
      simp only [Function.comp, zero_div, sub_zero, div_pow, Real.sq_sqrt hvpos.le]
      ring
    rw [this, sum_map_mul_const, ← hS, hvar]
    field_simp

/-- A constant vector, or one with one element, is left with its mean subtracted: zeros. -/
theorem C59_standard_constant (n : ℕ) (x : ℝ) : normOf (List.replicate (n + 1) x) 's' = some (List.replicate (n + 1) 0) := by
  have hm : vectorMean (some (List.replicate (n + 1) x)) none = some x := by
    rw [C51_mean _ (by simp)]
    simp
    have : ((n : ℝ) + 1) ≠ 0 := by positivity
    field_simp
  have e : (gslVarM ((List.replicate (n + 1) x).map (· + -x)) 0).bind (fun s => cdiv 1 (√s)) = none := by
    simp only [gslVarM, List.map_replicate, add_neg_cancel, sub_self, List.length_replicate, cdiv]
    by_cases h : ((n + 1 : ℕ) : ℝ) - 1 = 0
    · simp [h]
    · simp [h]
  simp only [normOf, normS, hm, if_true]
  rw [e]
  simp

/-- Data with different elements: 1, 2, 6. -/
example : ∃ r, normOf [1, 2, 6] 'r' = some r ∧ r = [1, 2, 6].map (fun x : ℝ => (x - 1) / (6 - 1)) := by
  obtain ⟨r, h1, h2, _⟩ := C59_range [1, 2, 6] (mn := 1) (mx := 6) (by simp) (by intro y hy; simp at hy; rcases hy with rfl | rfl | rfl <;> norm_num) (by simp)
    (by intro y hy; simp at hy; rcases hy with rfl | rfl | rfl <;> norm_num) (by norm_num)
  exact ⟨r, h1, h2⟩

end Apop.Stats
