import Verif.Stats.Moments
import Mathlib.Analysis.SpecialFunctions.Pow.Real
import Mathlib.Analysis.MeanInequalities

/-! # C57: distances -/

namespace Apop.Stats
open Real

/-- A sum over pairs of elements, apop_stats.m4.c:222-224, 227-229, 244-246. -/
def pairSum (g : ℝ → ℝ) (a b : List ℝ) : ℝ := (List.zip a b).foldl (fun d p => d + g (p.1 - p.2)) 0

/-- Lines 238-240. -/
def pairMax (a b : List ℝ) : ℝ := (List.zip a b).foldl (fun d p => max d |p.1 - p.2|) 0

/-- Lines 232-235. -/
noncomputable def discrete : List ℝ → List ℝ → ℝ
  | x :: a, y :: b => if x ≠ y then 1 else discrete a b
  | _, _ => 0

/-- The distance of two vectors of the same size by metric, apop_stats.m4.c:220-248. -/
noncomputable def distanceOf (a b : List ℝ) (metric : Char) (norm : ℝ) : Option ℝ :=
  if a.length ≠ b.length then none
  else if metric = 'e' ∨ metric = 'E' then some (√(pairSum (· ^ 2) a b))
  else if metric = 'm' ∨ metric = 'M' then some (pairSum (|·|) a b)
  else if metric = 'd' ∨ metric = 'D' then some (discrete a b)
  else if metric = 's' ∨ metric = 'S' then some (pairMax a b)
  else if metric = 'l' ∨ metric = 'L' then some (pairSum (|·| ^ norm) a b ^ (1 / norm))
  else none

/-- The static (thread local) vector of zeros kept between calls, apop_stats.m4.c:205-215. -/
def zeroFor (zero : Option (List ℝ)) (n : ℕ) : List ℝ :=
  match zero with
  | none => List.replicate n 0
  | some z => if z.length ≠ n then List.replicate n 0 else z

/-- `apop_vector_distance`, apop_stats.m4.c:204-248: the result and the static vector afterwards. NULL is `none`. -/
noncomputable def vectorDistance (zero : Option (List ℝ)) (a b : Option (List ℝ)) (metric : Char) (norm : ℝ) : Option ℝ × Option (List ℝ) :=
  match a with
  | none => (none, zero)
  | some a =>
    match b with
    | some b => (distanceOf a b metric norm, zero)
    | none => (distanceOf a (zeroFor zero a.length) metric norm, some (zeroFor zero a.length))

/-- A history of calls, one after the other on one thread. -/
noncomputable def calls : Option (List ℝ) → List (Option (List ℝ) × Option (List ℝ) × Char × ℝ) → List (Option ℝ) × Option (List ℝ)
  | zero, [] => ([], zero)
  | zero, (a, b, m, p) :: cs =>
    let r := vectorDistance zero a b m p
    let rs := calls r.2 cs
    (r.1 :: rs.1, rs.2)

/-! ## Proofs -/

/-- The static vector only ever holds zeros. -/
def ZeroInv (zero : Option (List ℝ)) : Prop := ∀ z, zero = some z → ∀ x ∈ z, x = 0

theorem zeroFor_eq {zero : Option (List ℝ)} (h : ZeroInv zero) (n : ℕ) : zeroFor zero n = List.replicate n 0 := by
  unfold zeroFor
  cases zero with
  | none => rfl
  | some z =>
    simp only
    split
    · rfl
    · rename_i hl
      rw [ne_eq, not_not] at hl
      rw [List.eq_replicate_iff]
      exact ⟨hl, h z rfl⟩

/-- **C57 (default).** In any history of calls, each call gives the distance of its two vectors, where a second vector that is not given is zero: nothing is left over from other calls. -/
theorem C57_history : ∀ (cs : List (Option (List ℝ) × Option (List ℝ) × Char × ℝ)) (zero : Option (List ℝ)), ZeroInv zero →
    (calls zero cs).1 = cs.map (fun c => c.1.bind (fun a => distanceOf a (c.2.1.getD (List.replicate a.length 0)) c.2.2.1 c.2.2.2)) ∧ ZeroInv (calls zero cs).2
  | [], zero, h => ⟨rfl, h⟩
  | (a, b, m, p) :: cs, zero, h => by
    have hz : ZeroInv (vectorDistance zero a b m p).2 := by
      unfold vectorDistance
      cases a with
      | none => exact h
      | some a =>
        cases b with
        | some b => exact h
        | none =>
          simp only [zeroFor_eq h]
          rintro z ⟨⟩ x hx
          exact (List.mem_replicate.1 hx).2
    have ih := C57_history cs _ hz
    refine ⟨?_, ih.2⟩
    rw [calls]
    simp only [ih.1, List.map_cons, List.cons.injEq, and_true]
    unfold vectorDistance
    cases a with
    | none => rfl
    | some a =>
      cases b with
      | some b => rfl
      | none => simp [zeroFor_eq h]

theorem pairSum_eq (g : ℝ → ℝ) (a b : List ℝ) (h : a.length = b.length) : pairSum g a b = ∑ i ∈ Finset.range a.length, g (a.getD i 0 - b.getD i 0) := by
  have key : ∀ (a b : List ℝ) (s : ℝ), a.length = b.length → (List.zip a b).foldl (fun d p => d + g (p.1 - p.2)) s = s + ∑ i ∈ Finset.range a.length, g (a.getD i 0 - b.getD i 0) := by
    intro a
    induction a with
    | nil => intro b s _; simp
    | cons x a ih =>
      intro b s h
      cases b with
      | nil => simp at h
      | cons y b =>
        simp only [List.zip_cons_cons, List.foldl_cons, List.length_cons]
        rw [ih b _ (by simpa using h), Finset.sum_range_succ']
        simp only [List.getD_cons_succ, List.getD_cons_zero]
        ring
  rw [pairSum, key a b 0 h, zero_add]

theorem pairMax_le {a b : List ℝ} (h : a.length = b.length) (c : ℝ) : pairMax a b ≤ c ↔ 0 ≤ c ∧ ∀ i < a.length, |a.getD i 0 - b.getD i 0| ≤ c := by
  have key : ∀ (a b : List ℝ) (s : ℝ), a.length = b.length → ((List.zip a b).foldl (fun d p => max d |p.1 - p.2|) s ≤ c ↔ s ≤ c ∧ ∀ i < a.length, |a.getD i 0 - b.getD i 0| ≤ c) := by
    intro a
    induction a with
    | nil => intro b s _; simp
    | cons x a ih =>
      intro b s h
      cases b with
      | nil => simp at h
      | cons y b =>
        simp only [List.zip_cons_cons, List.foldl_cons]
        rw [ih b _ (by simpa using h), max_le_iff]
        constructor
        · rintro ⟨⟨h1, h2⟩, h3⟩
          refine ⟨h1, fun i hi => ?_⟩
          cases i with
          | zero => simpa using h2
          | succ i => simpa using h3 i (by simpa using hi)
        · rintro ⟨h1, h2⟩
          exact ⟨⟨h1, by simpa using h2 0 (by simp)⟩, fun i hi => by simpa using h2 (i + 1) (by simpa using hi)⟩
  exact key a b 0 h

theorem getD_ext {a b : List ℝ} (h : a.length = b.length) (he : ∀ i < a.length, a.getD i 0 = b.getD i 0) : a = b := by
  apply List.ext_getElem h
  intro i h1 h2
  have := he i h1
  simpa [List.getD_eq_getElem?_getD, h1, h2] using this

theorem discrete_eq : ∀ (a b : List ℝ), a.length = b.length → discrete a b = if a = b then 0 else 1
  | [], [], _ => by simp [discrete]
  | x :: a, y :: b, h => by
    rw [discrete, discrete_eq a b (by simpa using h)]
    by_cases hx : x = y
    · subst hx; by_cases hab : a = b <;> simp [hab]
    · simp [hx]
  | [], _ :: _, h => by simp at h
  | _ :: _, [], h => by simp at h

/-- **C57 (values).** What each metric gives, for vectors of the same length. -/
theorem C57_values (a b : List ℝ) (h : a.length = b.length) (p : ℝ) :
    distanceOf a b 'e' p = some (√(∑ i ∈ Finset.range a.length, (a.getD i 0 - b.getD i 0) ^ 2)) ∧
    distanceOf a b 'm' p = some (∑ i ∈ Finset.range a.length, |a.getD i 0 - b.getD i 0|) ∧
    distanceOf a b 'd' p = some (if a = b then 0 else 1) ∧
    distanceOf a b 'l' p = some ((∑ i ∈ Finset.range a.length, |a.getD i 0 - b.getD i 0| ^ p) ^ (1 / p)) ∧
    ∃ d, distanceOf a b 's' p = some d ∧ 0 ≤ d ∧ (∀ i < a.length, |a.getD i 0 - b.getD i 0| ≤ d) ∧ ∀ c, 0 ≤ c → (∀ i < a.length, |a.getD i 0 - b.getD i 0| ≤ c) → d ≤ c := by
  refine ⟨?_, ?_, ?_, ?_, pairMax a b, ?_, ?_, ?_, ?_⟩
  · simp [distanceOf, h, pairSum_eq]
  · simp [distanceOf, h, pairSum_eq]
  · simp [distanceOf, h, discrete_eq]
  · simp [distanceOf, h, pairSum_eq]
  · simp [distanceOf, h]
  · exact ((pairMax_le h _).1 (le_refl _)).1
  · exact ((pairMax_le h _).1 (le_refl _)).2
  · intro c h0 hc; exact (pairMax_le h c).2 ⟨h0, hc⟩

/-- Vectors of different length have no distance. -/
theorem C57_lengths (a b : List ℝ) (h : a.length ≠ b.length) (metric : Char) (p : ℝ) : distanceOf a b metric p = none := by simp [distanceOf, h]

theorem sum_abs_zero {n : ℕ} {f : ℕ → ℝ} (hf : ∀ i < n, 0 ≤ f i) (h : ∑ i ∈ Finset.range n, f i = 0) : ∀ i < n, f i = 0 := by
  intro i hi
  exact (Finset.sum_eq_zero_iff_of_nonneg (fun j hj => hf j (Finset.mem_range.1 hj))).1 h i (Finset.mem_range.2 hi)

/-- Is this a metric on vectors of length `n`? -/
structure IsMetric (n : ℕ) (d : List ℝ → List ℝ → Option ℝ) : Prop where
  some : ∀ a b : List ℝ, a.length = n → b.length = n → ∃ x, d a b = some x ∧ 0 ≤ x
  zero : ∀ a b : List ℝ, a.length = n → b.length = n → (d a b = Option.some 0 ↔ a = b)
  symm : ∀ a b : List ℝ, a.length = n → b.length = n → d a b = d b a
  triangle : ∀ (a b c : List ℝ) (x y z : ℝ), a.length = n → b.length = n → c.length = n → d a b = Option.some x → d b c = Option.some y → d a c = Option.some z → z ≤ x + y

/-- **C57 (metrics), Lp.** For p ≥ 1 the Lp distance is a metric. -/
theorem C57_metric_Lp (n : ℕ) (p : ℝ) (hp : 1 ≤ p) : IsMetric n (fun a b => distanceOf a b 'l' p) := by
  have hp0 : 0 < p := by linarith
  have hnn : ∀ a b : List ℝ, 0 ≤ ∑ i ∈ Finset.range a.length, |a.getD i 0 - b.getD i 0| ^ p := fun a b => Finset.sum_nonneg (fun i _ => rpow_nonneg (abs_nonneg _) _)
  refine ⟨?_, ?_, ?_, ?_⟩
  · intro a b ha hb
    exact ⟨_, (C57_values a b (by omega) p).2.2.2.1, rpow_nonneg (hnn a b) _⟩
  · intro a b ha hb
    simp only [(C57_values a b (by omega) p).2.2.2.1, Option.some.injEq]
    rw [rpow_eq_zero (hnn a b) (by positivity)]
    constructor
    · intro h0
      apply getD_ext (by omega)
      intro i hi
      have := sum_abs_zero (fun j _ => rpow_nonneg (abs_nonneg _) _) h0 i hi
      rw [rpow_eq_zero (abs_nonneg _) (by linarith), abs_eq_zero, sub_eq_zero] at this
      exact this
    · rintro rfl
      apply Finset.sum_eq_zero
      intro i _
      simp [zero_rpow hp0.ne']
  · intro a b ha hb
    simp only [(C57_values a b (by omega) p).2.2.2.1, (C57_values b a (by omega) p).2.2.2.1, ha, hb, abs_sub_comm]
  · intro a b c x y z ha hb hc hx hy hz
    simp only [(C57_values a b (by omega) p).2.2.2.1, Option.some.injEq] at hx
    simp only [(C57_values b c (by omega) p).2.2.2.1, Option.some.injEq] at hy
    simp only [(C57_values a c (by omega) p).2.2.2.1, Option.some.injEq] at hz
    rw [← hx, ← hy, ← hz, ha, hb]
    have := Real.Lp_add_le (Finset.range n) (fun i => a.getD i 0 - b.getD i 0) (fun i => b.getD i 0 - c.getD i 0) hp
    simpa using this

theorem distance_e_eq_l (a b : List ℝ) (p : ℝ) : distanceOf a b 'e' p = distanceOf a b 'l' 2 := by
  by_cases h : a.length = b.length
  · rw [(C57_values a b h p).1, (C57_values a b h 2).2.2.2.1, sqrt_eq_rpow]
    congr 2
    apply Finset.sum_congr rfl
    intro i _
    rw [rpow_two, sq_abs]
  · rw [C57_lengths a b h, C57_lengths a b h]

theorem distance_m_eq_l (a b : List ℝ) (p : ℝ) : distanceOf a b 'm' p = distanceOf a b 'l' 1 := by
  by_cases h : a.length = b.length
  · rw [(C57_values a b h p).2.1, (C57_values a b h 1).2.2.2.1]
    simp
  · rw [C57_lengths a b h, C57_lengths a b h]

/-- **C57 (metrics), Euclid and Manhattan.** -/
theorem C57_metric_euclid (n : ℕ) (p : ℝ) : IsMetric n (fun a b => distanceOf a b 'e' p) := by
  simp only [distance_e_eq_l]
  exact C57_metric_Lp n 2 (by norm_num)

theorem C57_metric_manhattan (n : ℕ) (p : ℝ) : IsMetric n (fun a b => distanceOf a b 'm' p) := by
  simp only [distance_m_eq_l]
  exact C57_metric_Lp n 1 (by norm_num)

/-- **C57 (metrics), discrete.** -/
theorem C57_metric_discrete (n : ℕ) (p : ℝ) : IsMetric n (fun a b => distanceOf a b 'd' p) := by
  refine ⟨?_, ?_, ?_, ?_⟩
  · intro a b ha hb
    refine ⟨_, (C57_values a b (by omega) p).2.2.1, ?_⟩
    split <;> norm_num
  · intro a b ha hb
    simp only [(C57_values a b (by omega) p).2.2.1, Option.some.injEq]
    split
    · rename_i h; simp [h]
    · rename_i h; simp [h]
  · intro a b ha hb
    simp only [(C57_values a b (by omega) p).2.2.1, (C57_values b a (by omega) p).2.2.1, eq_comm]
  · intro a b c x y z ha hb hc hx hy hz
    simp only [(C57_values a b (by omega) p).2.2.1, Option.some.injEq] at hx
    simp only [(C57_values b c (by omega) p).2.2.1, Option.some.injEq] at hy
    simp only [(C57_values a c (by omega) p).2.2.1, Option.some.injEq] at hz
    rw [← hx, ← hy, ← hz]
    by_cases h1 : a = b
    · subst h1; simp
    · by_cases h2 : b = c
      · subst h2; simp
      · rw [if_neg h1, if_neg h2]; split <;> norm_num

/-- **C57 (metrics), sup.** -/
theorem C57_metric_sup (n : ℕ) (p : ℝ) : IsMetric n (fun a b => distanceOf a b 's' p) := by
  refine ⟨?_, ?_, ?_, ?_⟩
  · intro a b ha hb
    obtain ⟨d, hd, h0, _⟩ := (C57_values a b (by omega) p).2.2.2.2
    exact ⟨d, hd, h0⟩
  · intro a b ha hb
    obtain ⟨d, hd, h0, h1, h2⟩ := (C57_values a b (by omega) p).2.2.2.2
    simp only [hd, Option.some.injEq]
    constructor
    · rintro rfl
      apply getD_ext (by omega)
      intro i hi
      have := h1 i hi
      rw [abs_nonpos_iff, sub_eq_zero] at this
      exact this
    · rintro rfl
      exact le_antisymm (h2 0 (le_refl _) (fun i _ => by simp)) h0
  · intro a b ha hb
    obtain ⟨d, hd, h0, h1, h2⟩ := (C57_values a b (by omega) p).2.2.2.2
    obtain ⟨e, he, g0, g1, g2⟩ := (C57_values b a (by omega) p).2.2.2.2
    simp only [hd, he, Option.some.injEq]
    exact le_antisymm (h2 e g0 (fun i hi => by rw [abs_sub_comm]; exact g1 i (by omega))) (g2 d h0 (fun i hi => by rw [abs_sub_comm]; exact h1 i (by omega)))
  · intro a b c x y z ha hb hc hx hy hz
    obtain ⟨d, hd, h0, h1, _⟩ := (C57_values a b (by omega) p).2.2.2.2
    obtain ⟨e, he, g0, g1, _⟩ := (C57_values b c (by omega) p).2.2.2.2
    obtain ⟨f, hf, _, _, f2⟩ := (C57_values a c (by omega) p).2.2.2.2
    simp only [hd, he, hf, Option.some.injEq] at hx hy hz
    subst hx hy hz
    refine f2 _ (by linarith) (fun i hi => ?_)
    calc |a.getD i 0 - c.getD i 0| ≤ |a.getD i 0 - b.getD i 0| + |b.getD i 0 - c.getD i 0| := abs_sub_le _ _ _
      _ ≤ d + e := add_le_add (h1 i hi) (g1 i (by omega))

/-- 3, 4 is at distance 5 from the default, zero. -/
example : (vectorDistance none (some [3, 4]) none 'e' 2).1 = some 5 := by
  simp only [vectorDistance, zeroFor]
  rw [(C57_values _ _ (by simp) 2).1]
  norm_num [Finset.sum_range_succ]
  rw [show (25 : ℝ) = 5 ^ 2 by norm_num]
  exact Real.sqrt_sq (by norm_num)

end Apop.Stats
