import Verif.Base.C
import Verif.Stats.Moments
import Mathlib.Data.List.Sort
import Mathlib.Tactic.Push

/-! # C55: percentiles -/

namespace Apop.Stats
variable {K : Type} [Field K] [LinearOrder K]

/-- `gsl_sort_vector` (GSL): into ascending order. -/
def sortVec (v : List K) : List K := v.insertionSort (· ≤ ·)

/-- Where percentile `i` of `n` elements is found, rounded down: `int index = i*(data->size-1)/100.0`, apop_stats.m4.c:453. (The division of doubles is exact enough for the result to be
the whole part of the quotient as long as `100 n` is below 2^46.) -/
def pctIndex (i n : ℕ) : ℕ := i * (n - 1) / 100

/-- Was it rounded? Lines 454, 456. -/
def pctRounded (i n : ℕ) : Bool := i * (n - 1) % 100 != 0

/-- Percentile `i` from the sorted data, lines 453-458. Elements outside of the vector are undefined. -/
def pctOne (rounding : Char) (s : List K) (i : ℕ) : Res K :=
  let k := pctIndex i s.length
  if rounding = 'a' ∧ pctRounded i s.length = true then do
    let a ← rd s k
    let b ← rd s (k + 1)
    .ok ((a + b) / 2)
  else if rounding = 'u' ∧ pctRounded i s.length = true then rd s (k + 1)
  else rd s k

/-- All of them. -/
def pctAll (rounding : Char) (s : List K) : List ℕ → Res (List K)
  | [] => .ok []
  | i :: is => do
    let x ← pctOne rounding s i
    let xs ← pctAll rounding s is
    .ok (x :: xs)

/-- `apop_vector_percentiles`, apop_stats.m4.c:442-462. A vector of size zero: `size-1` wraps around. -/
def percentiles (v : List K) (rounding : Char) : Res (List K) := if v = [] then .ub else pctAll rounding (sortVec v) (List.range 101)

/-! ## Proofs -/

theorem sortVec_perm (v : List K) : (sortVec v).Perm v := List.perm_insertionSort _ v
theorem sortVec_sorted (v : List K) : (sortVec v).Pairwise (· ≤ ·) := List.pairwise_insertionSort (· ≤ ·) v
theorem sortVec_length (v : List K) : (sortVec v).length = v.length := (sortVec_perm v).length_eq

theorem pctIndex_lt {i n : ℕ} (hi : i ≤ 100) (hn : 0 < n) : pctIndex i n < n := by
  unfold pctIndex
  have h1 : i * (n - 1) ≤ 100 * (n - 1) := Nat.mul_le_mul_right _ hi
  have h2 : i * (n - 1) / 100 ≤ n - 1 := by
    calc i * (n - 1) / 100 ≤ 100 * (n - 1) / 100 := Nat.div_le_div_right h1
      _ = n - 1 := by simp
  omega

theorem pctIndex_succ_lt {i n : ℕ} (hi : i ≤ 100) (hn : 0 < n) (hr : pctRounded i n = true) : pctIndex i n + 1 < n := by
  unfold pctIndex
  have h1 : i * (n - 1) ≤ 100 * (n - 1) := Nat.mul_le_mul_right _ hi
  simp [pctRounded] at hr
  have h3 : i * (n - 1) ≠ 100 * (n - 1) := by
    intro e
    rw [e] at hr
    simp at hr
  have h4 : i * (n - 1) / 100 < n - 1 := by
    rw [Nat.div_lt_iff_lt_mul (by norm_num)]
    omega
  omega

theorem rd_ok {s : List K} {k : ℕ} (h : k < s.length) : rd s (k : ℕ) = .ok s[k] := by
  simp [rd, List.getElem?_eq_getElem h]

/-- The value, by cases. -/
theorem pctOne_value (rounding : Char) (s : List K) (hs : s ≠ []) (i : ℕ) (hi : i ≤ 100) :
    ∃ x, pctOne rounding s i = .ok x ∧
      ((∃ a b, rounding = 'a' ∧ pctRounded i s.length = true ∧ s[pctIndex i s.length]? = some a ∧ s[pctIndex i s.length + 1]? = some b ∧ x = (a + b) / 2) ∨
       (rounding = 'u' ∧ pctRounded i s.length = true ∧ s[pctIndex i s.length + 1]? = some x) ∨
       (((rounding ≠ 'a' ∧ rounding ≠ 'u') ∨ pctRounded i s.length = false) ∧ s[pctIndex i s.length]? = some x)) := by
  have hn : 0 < s.length := List.length_pos_of_ne_nil hs
  have h1 := pctIndex_lt hi hn
  unfold pctOne
  by_cases hr : pctRounded i s.length = true
  · have h2 := pctIndex_succ_lt hi hn hr
    by_cases ha : rounding = 'a'
    · subst ha
      refine ⟨(s[pctIndex i s.length] + s[pctIndex i s.length + 1]) / 2, ?_, Or.inl ⟨s[pctIndex i s.length], s[pctIndex i s.length + 1], rfl, hr, by simp, by simp, rfl⟩⟩
      simp only [hr, and_self, if_true, rd_ok h1, rd_ok h2]
      rfl
    · by_cases hu : rounding = 'u'
      · subst hu
        refine ⟨s[pctIndex i s.length + 1], ?_, Or.inr (Or.inl ⟨rfl, hr, by simp⟩)⟩
        simp only [hr]
        rw [if_neg (by simp), if_pos (by simp), rd_ok h2]
      · refine ⟨s[pctIndex i s.length], ?_, Or.inr (Or.inr ⟨Or.inl ⟨ha, hu⟩, by simp⟩)⟩
        rw [if_neg (by simp [ha]), if_neg (by simp [hu]), rd_ok h1]
  · refine ⟨s[pctIndex i s.length], ?_, Or.inr (Or.inr ⟨Or.inr (by simpa using hr), by simp⟩)⟩
    rw [if_neg (by simp [hr]), if_neg (by simp [hr]), rd_ok h1]

theorem pctAll_ok (rounding : Char) (s : List K) (hs : s ≠ []) : ∀ (is : List ℕ), (∀ i ∈ is, i ≤ 100) →
    ∃ r, pctAll rounding s is = .ok r ∧ r.length = is.length ∧ ∀ (j i : ℕ), is[j]? = some i → ∃ x, r[j]? = some x ∧ pctOne rounding s i = .ok x
  | [], _ => ⟨[], rfl, rfl, by simp⟩
  | i :: is, h => by
    obtain ⟨x, hx, _⟩ := pctOne_value rounding s hs i (h i (by simp))
    obtain ⟨r, hr, hl, hg⟩ := pctAll_ok rounding s hs is (fun j hj => h j (by simp [hj]))
    refine ⟨x :: r, ?_, by simp [hl], ?_⟩
    · rw [pctAll, hx]; simp only [bind, Res.bind, hr]
    · intro j i' hj
      cases j with
      | zero => simp at hj; subst hj; exact ⟨x, by simp, hx⟩
      | succ j => simpa using hg j i' (by simpa using hj)

/-- The call returns 101 numbers for every vector that is not empty. -/
theorem C55_total (v : List K) (hv : v ≠ []) (rounding : Char) : ∃ r, percentiles v rounding = .ok r ∧ r.length = 101 ∧
    ∀ i ≤ 100, ∃ x, r[i]? = some x ∧ pctOne rounding (sortVec v) i = .ok x := by
  have hs : sortVec v ≠ [] := by
    intro e
    have := sortVec_length v
    rw [e] at this
    exact hv (List.length_eq_zero_iff.1 this.symm)
  obtain ⟨r, hr, hl, hg⟩ := pctAll_ok rounding (sortVec v) hs (List.range 101) (fun i hi => by simp at hi; omega)
  refine ⟨r, by rw [percentiles, if_neg hv, hr], by simp [hl], fun i hi => hg i i ?_⟩
  rw [List.getElem?_range (by omega)]

theorem sorted_le {s : List K} (h : s.Pairwise (· ≤ ·)) {j k : ℕ} {a b : K} (ha : s[j]? = some a) (hb : s[k]? = some b) (hjk : j ≤ k) : a ≤ b := by
  obtain ⟨h1, rfl⟩ := List.getElem?_eq_some_iff.1 ha
  obtain ⟨h2, rfl⟩ := List.getElem?_eq_some_iff.1 hb
  rcases Nat.lt_or_ge j k with h' | h'
  · exact List.pairwise_iff_getElem.1 h j k h1 h2 h'
  · have : j = k := by omega
    subst this; exact le_refl _

/-- In a sorted list, at least `k + 1` elements are no larger than element `k`, and at least `n - k` are no smaller. -/
theorem sorted_count {s : List K} (h : s.Pairwise (· ≤ ·)) {k : ℕ} {a : K} (ha : s[k]? = some a) :
    k + 1 ≤ s.countP (· ≤ a) ∧ s.length - k ≤ s.countP (a ≤ ·) := by
  obtain ⟨hk, he⟩ := List.getElem?_eq_some_iff.1 ha
  have h1 : (s.take (k + 1)).countP (· ≤ a) = (s.take (k + 1)).length := by
    rw [List.countP_eq_length]
    intro x hx
    obtain ⟨j, hj⟩ := List.getElem?_of_mem hx
    have hjl := (List.getElem?_eq_some_iff.1 hj).1
    rw [List.length_take] at hjl
    rw [List.getElem?_take_of_lt (by omega)] at hj
    simpa using sorted_le h hj ha (by omega)
  have h2 : (s.drop k).countP (a ≤ ·) = (s.drop k).length := by
    rw [List.countP_eq_length]
    intro x hx
    obtain ⟨j, hj⟩ := List.getElem?_of_mem hx
    rw [List.getElem?_drop] at hj
    simpa using sorted_le h ha hj (by omega)
  have e1 : s.countP (· ≤ a) = (s.take (k + 1)).countP (· ≤ a) + (s.drop (k + 1)).countP (· ≤ a) := by
    rw [← List.countP_append, List.take_append_drop]
  have e2 : s.countP (a ≤ ·) = (s.take k).countP (a ≤ ·) + (s.drop k).countP (a ≤ ·) := by
    rw [← List.countP_append, List.take_append_drop]
  rw [List.length_take] at h1
  rw [List.length_drop] at h2
  constructor <;> omega

variable [IsStrictOrderedRing K]

/-- The percentile as a mean of two elements of the sorted data at places around `i (n - 1) / 100`. -/
theorem pctOne_between (rounding : Char) (s : List K) (hs : s ≠ []) (hsort : s.Pairwise (· ≤ ·)) (i : ℕ) (hi : i ≤ 100) :
    ∃ x a b j k, pctOne rounding s i = .ok x ∧ s[j]? = some a ∧ s[k]? = some b ∧ j = pctIndex i s.length ∧ (i * (s.length - 1) + 99) / 100 = k ∧ a ≤ x ∧ x ≤ b := by
  obtain ⟨x, hx, hc⟩ := pctOne_value rounding s hs i hi
  have hn : 0 < s.length := List.length_pos_of_ne_nil hs
  have hk1 : pctRounded i s.length = true → (i * (s.length - 1) + 99) / 100 = pctIndex i s.length + 1 := by
    intro h; simp [pctRounded] at h; unfold pctIndex; omega
  have hk0 : pctRounded i s.length = false → (i * (s.length - 1) + 99) / 100 = pctIndex i s.length := by
    intro h; simp [pctRounded] at h; unfold pctIndex; omega
  rcases hc with ⟨a, b, _, hr, h1, h2, he⟩ | ⟨_, hr, h2⟩ | ⟨_, h1⟩
  · have hab := sorted_le hsort h1 h2 (by omega)
    exact ⟨x, a, b, _, _, hx, h1, h2, rfl, hk1 hr, by rw [he]; linarith, by rw [he]; linarith⟩
  · have hlt := pctIndex_lt hi hn
    have h1 : s[pctIndex i s.length]? = some s[pctIndex i s.length] := by simp
    exact ⟨x, _, x, _, _, hx, h1, h2, rfl, hk1 hr, sorted_le hsort h1 h2 (by omega), le_refl _⟩
  · cases hr : pctRounded i s.length with
    | false => exact ⟨x, x, x, _, _, hx, h1, h1, rfl, hk0 hr, le_refl _, le_refl _⟩
    | true =>
      have h2' := pctIndex_succ_lt hi hn hr
      have h2 : s[pctIndex i s.length + 1]? = some s[pctIndex i s.length + 1] := by simp
      exact ⟨x, x, _, _, _, hx, h1, h2, rfl, hk1 hr, le_refl _, sorted_le hsort h1 h2 (by omega)⟩

/-- **C55 (order).** Percentiles do not decrease. -/
theorem C55_monotone (v : List K) (hv : v ≠ []) (rounding : Char) {r : List K} (hr : percentiles v rounding = .ok r) {i j : ℕ} {x y : K} (hij : i ≤ j)
    (hx : r[i]? = some x) (hy : r[j]? = some y) : x ≤ y := by
  obtain ⟨r', hr', hl, hg⟩ := C55_total v hv rounding
  rw [hr] at hr'; injection hr' with hr'; subst hr'
  have hj : j ≤ 100 := by have := (List.getElem?_eq_some_iff.1 hy).1; omega
  obtain ⟨x', hx', hpx⟩ := hg i (by omega)
  obtain ⟨y', hy', hpy⟩ := hg j hj
  rw [hx] at hx'; injection hx' with hx'; subst hx'
  rw [hy] at hy'; injection hy' with hy'; subst hy'
  have hsort := sortVec_sorted v
  have hs : sortVec v ≠ [] := by
    intro e
    have := sortVec_length v
    rw [e] at this
    exact hv (List.length_eq_zero_iff.1 this.symm)
  generalize sortVec v = s at hpx hpy hsort hs
  -- places
  have hn : 0 < s.length := List.length_pos_of_ne_nil hs
  have hmul : i * (s.length - 1) ≤ j * (s.length - 1) := Nat.mul_le_mul_right _ hij
  have hidx : pctIndex i s.length ≤ pctIndex j s.length := Nat.div_le_div_right hmul
  obtain ⟨x', hx', cx⟩ := pctOne_value rounding s hs i (by omega)
  obtain ⟨y', hy', cy⟩ := pctOne_value rounding s hs j hj
  rw [hpx] at hx'; injection hx' with hx'; subst hx'
  rw [hpy] at hy'; injection hy' with hy'; subst hy'
  by_cases heq : pctIndex i s.length = pctIndex j s.length
  · -- the same place: only the rounding may differ
    by_cases hri : pctRounded i s.length = true ∧ pctRounded j s.length = false
    · exfalso
      simp [pctRounded, pctIndex] at hri heq
      omega
    · rcases cx with ⟨a, b, ha, hra, h1, h2, he⟩ | ⟨hu, hru, h2⟩ | ⟨hd, h1⟩
      · rcases cy with ⟨a', b', _, _, h1', h2', he'⟩ | ⟨hu', _, _⟩ | ⟨hd', h1'⟩
        · rw [heq] at h1 h2
          rw [h1] at h1'; rw [h2] at h2'
          injection h1' with h1'; injection h2' with h2'
          rw [he, he', h1', h2']
        · subst ha; simp at hu'
        · rcases hd' with ⟨hd', _⟩ | hd'
          · exact absurd ha hd'
          · exact absurd ⟨hra, hd'⟩ hri
      · rcases cy with ⟨a', b', ha', _, _, _, _⟩ | ⟨_, _, h2'⟩ | ⟨hd', h1'⟩
        · subst hu; simp at ha'
        · rw [heq, h2'] at h2; injection h2 with h2; rw [h2]
        · rcases hd' with ⟨_, hd'⟩ | hd'
          · exact absurd hu hd'
          · exact absurd ⟨hru, hd'⟩ hri
      · rcases cy with ⟨a', b', _, _, h1', h2', he'⟩ | ⟨_, _, h2'⟩ | ⟨_, h1'⟩
        · rw [heq, h1'] at h1; injection h1 with h1
          have := sorted_le hsort h1' h2' (by omega)
          rw [he', ← h1]; linarith
        · exact sorted_le hsort h1 h2' (by omega)
        · exact sorted_le hsort h1 h1' (by omega)
  · obtain ⟨x', a, b, j1, k1, hx', ha, hb, hj1, hk1, _, hxb⟩ := pctOne_between rounding s hs hsort i (by omega)
    obtain ⟨y', a', b', j2, k2, hy', ha', hb', hj2, hk2, hay, _⟩ := pctOne_between rounding s hs hsort j hj
    rw [hpx] at hx'; injection hx' with hx'; subst hx'
    rw [hpy] at hy'; injection hy' with hy'; subst hy'
    have : k1 ≤ j2 := by
      have : pctIndex i s.length + 1 ≤ pctIndex j s.length := by omega
      unfold pctIndex at this hj2
      omega
    exact le_trans hxb (le_trans (sorted_le hsort hb ha' this) hay)

theorem countP_sort (v : List K) (p : K → Bool) : (sortVec v).countP p = v.countP p := (sortVec_perm v).countP_eq p

/-- **C55 (ends).** Whatever the rounding rule, percentile 0 is the smallest element and percentile 100 the largest. -/
theorem C55_ends (v : List K) (hv : v ≠ []) (rounding : Char) {r : List K} (hr : percentiles v rounding = .ok r) :
    (∃ x, r[0]? = some x ∧ x ∈ v ∧ ∀ y ∈ v, x ≤ y) ∧ (∃ x, r[100]? = some x ∧ x ∈ v ∧ ∀ y ∈ v, y ≤ x) := by
  obtain ⟨r', hr', hl, hg⟩ := C55_total v hv rounding
  rw [hr] at hr'; injection hr' with hr'; subst hr'
  have hsort := sortVec_sorted v
  have hs : sortVec v ≠ [] := by
    intro e
    have := sortVec_length v
    rw [e] at this
    exact hv (List.length_eq_zero_iff.1 this.symm)
  have hmem : ∀ y, y ∈ v ↔ y ∈ sortVec v := fun y => ((sortVec_perm v).mem_iff).symm
  generalize sortVec v = s at hsort hs hmem hg
  have hn : 0 < s.length := List.length_pos_of_ne_nil hs
  constructor
  · obtain ⟨x, hx, hp⟩ := hg 0 (by omega)
    obtain ⟨x', hx', c⟩ := pctOne_value rounding s hs 0 (by omega)
    rw [hp] at hx'; injection hx' with hx'; subst hx'
    have hz : s[0]? = some x := by
      rcases c with ⟨_, _, _, h, _⟩ | ⟨_, h, _⟩ | ⟨_, h⟩
      · simp [pctRounded] at h
      · simp [pctRounded] at h
      · simpa [pctIndex] using h
    refine ⟨x, hx, (hmem x).2 (List.mem_of_getElem? hz), fun y hy => ?_⟩
    obtain ⟨k, hk⟩ := List.getElem?_of_mem ((hmem y).1 hy)
    exact sorted_le hsort hz hk (by omega)
  · obtain ⟨x, hx, hp⟩ := hg 100 (by omega)
    obtain ⟨x', hx', c⟩ := pctOne_value rounding s hs 100 (by omega)
    rw [hp] at hx'; injection hx' with hx'; subst hx'
    have hz : s[s.length - 1]? = some x := by
      rcases c with ⟨_, _, _, h, _⟩ | ⟨_, h, _⟩ | ⟨_, h⟩
      · simp [pctRounded] at h
      · simp [pctRounded] at h
      · simpa [pctIndex] using h
    refine ⟨x, hx, (hmem x).2 (List.mem_of_getElem? hz), fun y hy => ?_⟩
    obtain ⟨k, hk⟩ := List.getElem?_of_mem ((hmem y).1 hy)
    have := (List.getElem?_eq_some_iff.1 hk).1
    exact sorted_le hsort hk hz (by omega)

/-- **C55 ('u').** Rounding up: at least `i` percent of the elements are no larger than percentile `i`. -/
theorem C55_up (v : List K) (hv : v ≠ []) {r : List K} (hr : percentiles v 'u' = .ok r) {i : ℕ} {x : K} (hx : r[i]? = some x) :
    x ∈ v ∧ i * v.length ≤ 100 * v.countP (· ≤ x) := by
  obtain ⟨r', hr', hl, hg⟩ := C55_total v hv 'u'
  rw [hr] at hr'; injection hr' with hr'; subst hr'
  have hi : i ≤ 100 := by have := (List.getElem?_eq_some_iff.1 hx).1; omega
  obtain ⟨x', hx', hp⟩ := hg i hi
  rw [hx] at hx'; injection hx' with hx'; subst hx'
  have hsort := sortVec_sorted v
  have hs : sortVec v ≠ [] := by
    intro e
    have := sortVec_length v
    rw [e] at this
    exact hv (List.length_eq_zero_iff.1 this.symm)
  have hmem : ∀ y, y ∈ sortVec v → y ∈ v := fun y => ((sortVec_perm v).mem_iff).1
  rw [← countP_sort, ← sortVec_length v]
  generalize sortVec v = s at hsort hs hmem hp
  have hn : 0 < s.length := List.length_pos_of_ne_nil hs
  obtain ⟨x', hx', c⟩ := pctOne_value 'u' s hs i hi
  rw [hp] at hx'; injection hx' with hx'; subst hx'
  have key : ∃ k, s[k]? = some x ∧ i * (s.length - 1) ≤ 100 * k := by
    rcases c with ⟨_, _, h, _⟩ | ⟨_, _, h⟩ | ⟨h0, h⟩
    · simp at h
    · exact ⟨_, h, by unfold pctIndex; omega⟩
    · refine ⟨_, h, ?_⟩
      have : pctRounded i s.length = false := by simpa using h0
      simp [pctRounded] at this
      unfold pctIndex; omega
  obtain ⟨k, hk, hle⟩ := key
  refine ⟨hmem _ (List.mem_of_getElem? hk), ?_⟩
  have := (sorted_count hsort hk).1
  have h2 : i * s.length = i * (s.length - 1) + i := by
    obtain ⟨m, hm⟩ : ∃ m, s.length = m + 1 := ⟨s.length - 1, by omega⟩
    rw [hm]; simp [Nat.mul_add]
  omega

/-- **C55 ('d').** Rounding down: at least `100 - i` percent of the elements are no smaller than percentile `i`. -/
theorem C55_down (v : List K) (hv : v ≠ []) {r : List K} (hr : percentiles v 'd' = .ok r) {i : ℕ} {x : K} (hx : r[i]? = some x) :
    x ∈ v ∧ (100 - i) * v.length ≤ 100 * v.countP (x ≤ ·) := by
  obtain ⟨r', hr', hl, hg⟩ := C55_total v hv 'd'
  rw [hr] at hr'; injection hr' with hr'; subst hr'
  have hi : i ≤ 100 := by have := (List.getElem?_eq_some_iff.1 hx).1; omega
  obtain ⟨x', hx', hp⟩ := hg i hi
  rw [hx] at hx'; injection hx' with hx'; subst hx'
  have hsort := sortVec_sorted v
  have hs : sortVec v ≠ [] := by
    intro e
    have := sortVec_length v
    rw [e] at this
    exact hv (List.length_eq_zero_iff.1 this.symm)
  have hmem : ∀ y, y ∈ sortVec v → y ∈ v := fun y => ((sortVec_perm v).mem_iff).1
  rw [← countP_sort, ← sortVec_length v]
  generalize sortVec v = s at hsort hs hmem hp
  have hn : 0 < s.length := List.length_pos_of_ne_nil hs
  obtain ⟨x', hx', c⟩ := pctOne_value 'd' s hs i hi
  rw [hp] at hx'; injection hx' with hx'; subst hx'
  have key : s[pctIndex i s.length]? = some x := by
    rcases c with ⟨_, _, h, _⟩ | ⟨h, _⟩ | ⟨_, h⟩
    · simp at h
    · simp at h
    · exact h
  refine ⟨hmem _ (List.mem_of_getElem? key), ?_⟩
  have := (sorted_count hsort key).2
  have hlt := pctIndex_lt hi hn
  have hle : 100 * pctIndex i s.length ≤ i * (s.length - 1) := by unfold pctIndex; omega
  have h2 : i * (s.length - 1) ≤ i * s.length := Nat.mul_le_mul_left _ (by omega)
  have h3 : (100 - i) * s.length + i * s.length = 100 * s.length := by rw [← Nat.add_mul]; congr 1; omega
  omega

/-- **C55 fails for 'a'** ("you can say '5% or more of the sample is below returned_vector[5]'"): of the data 0, 1, percentile 99 is 1/2, and only half of the sample is not above it. -/
theorem C55_average_not_below : pctOne 'a' ([0, 1] : List ℚ) 99 = .ok (1 / 2) ∧ ([0, 1] : List ℚ).countP (· ≤ (1 / 2 : ℚ)) = 1 := by
  constructor
  · rw [pctOne, if_pos (by decide)]
    norm_num [pctIndex, rd]
  · decide +kernel

/-- Nor is "5% or more of the sample above returned_vector[5]" what rounding down gives for every percentile: no element is above percentile 100. (What holds is `C55_down`.) -/
theorem C55_above_literal (v : List K) (hv : v ≠ []) {r : List K} (hr : percentiles v 'd' = .ok r) {x : K} (hx : r[100]? = some x) : v.countP (x < ·) = 0 := by
  obtain ⟨_, y, hy, _, hmax⟩ := C55_ends v hv 'd' hr
  rw [hx] at hy; injection hy with hy; subst hy
  rw [List.countP_eq_zero]
  intro z hz
  simpa using hmax z hz

/-- A vector of size zero is not caught. -/
theorem C55_empty (rounding : Char) : percentiles ([] : List K) rounding = .ub := rfl

/-- Five elements out of order: the median and the quartiles, rounded down. -/
example : (pctOne 'd' (sortVec ([5, 1, 4, 2, 3] : List ℚ)) 50 = .ok 3) ∧ (pctOne 'u' (sortVec ([5, 1, 4, 2, 3] : List ℚ)) 26 = .ok 3) := by
  constructor <;> decide +kernel

end Apop.Stats
