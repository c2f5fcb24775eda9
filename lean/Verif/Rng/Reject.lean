import Mathlib.Probability.ProductMeasure
import Mathlib.Analysis.SpecificLimits.Basic
import Mathlib.MeasureTheory.Constructions.BorelSpace.Basic

/-! # Rejection loops

A loop `do { take fresh random numbers; } while (rejected);` on a stream of independent, identically distributed random inputs. -/

namespace Apop.Rng

open MeasureTheory ProbabilityTheory

/-- The result of a loop that goes on as long as `step` of the next input is `none`; `none` if it never ends. -/
noncomputable def firstSome {X Y : Type*} (step : X → Option Y) (ω : ℕ → X) : Option Y :=
  open Classical in if h : ∃ n, step (ω n) ≠ none then step (ω (Nat.find h)) else none

theorem firstSome_eq {X Y : Type*} (step : X → Option Y) (ω : ℕ → X) (y : Y) :
    firstSome step ω = some y ↔ ∃ n, (∀ i < n, step (ω i) = none) ∧ step (ω n) = some y := by
  classical
  unfold firstSome
  constructor
  · intro h
    split_ifs at h with hn
    refine ⟨Nat.find hn, fun i hi => ?_, ?_⟩
    · have := Nat.find_min hn hi
      push Not at this
      exact this
    · convert h
  · rintro ⟨n, h1, h2⟩
    have hn : ∃ n, step (ω n) ≠ none := ⟨n, by rw [h2]; simp⟩
    rw [dif_pos hn]
    have : Nat.find hn = n := by
      rw [Nat.find_eq_iff]
      exact ⟨by rw [h2]; simp, fun m hm => by simp [h1 m hm]⟩
    convert h2

/-- The law of the result of a rejection loop: the chance of an accepted `y` divided by the chance of acceptance. -/
theorem firstSome_law {X Y : Type*} [MeasurableSpace X] (μ : Measure X) [IsProbabilityMeasure μ] (step : X → Option Y) (y : Y)
    (hy : MeasurableSet {x | step x = some y}) (hn : MeasurableSet {x | step x = none}) :
    Measure.infinitePi (fun _ : ℕ => μ) {ω | firstSome step ω = some y} = μ {x | step x = some y} / μ {x | step x ≠ none} := by
  have e : {ω : ℕ → X | firstSome step ω = some y} = ⋃ n : ℕ, Set.pi (Finset.range (n + 1)) (fun i => if i = n then {x | step x = some y} else {x | step x = none}) := by
    ext ω
    simp only [Set.mem_setOf_eq, firstSome_eq, Set.mem_iUnion, Set.mem_pi, Finset.coe_range, Set.mem_Iio]
    refine exists_congr fun n => ⟨fun h i hi => ?_, fun h => ⟨fun i hi => ?_, ?_⟩⟩
    · by_cases hin : i = n
      · rw [if_pos hin, hin]; exact h.2
      · rw [if_neg hin]; exact h.1 i (by omega)
    · have := h i (by omega)
      rwa [if_neg (by omega)] at this
    · have := h n (by omega)
      rwa [if_pos rfl] at this
  have hmeas : ∀ n i : ℕ, MeasurableSet (if i = n then {x | step x = some y} else {x | step x = none}) := by
    intro n i; split_ifs <;> assumption
  rw [e, measure_iUnion]
  · have h1 : ∀ n : ℕ, Measure.infinitePi (fun _ : ℕ => μ) (Set.pi (Finset.range (n + 1)) (fun i => if i = n then {x | step x = some y} else {x | step x = none})) =
        μ {x | step x = none} ^ n * μ {x | step x = some y} := by
      intro n
      rw [Measure.infinitePi_pi _ (fun i _ => hmeas n i), Finset.prod_range_succ, if_pos rfl]
      congr 1
      rw [Finset.prod_congr rfl (g := fun _ => μ {x | step x = none}), Finset.prod_const, Finset.card_range]
      intro i hi
      rw [if_neg (by have := Finset.mem_range.mp hi; omega)]
    simp_rw [h1]
    rw [ENNReal.tsum_mul_right, ENNReal.tsum_geometric, mul_comm, div_eq_mul_inv]
    congr 2
    have : {x | step x ≠ none} = {x | step x = none}ᶜ := rfl
    rw [this, prob_compl_eq_one_sub hn]
  · intro m n hmn
    rw [Function.onFun, Set.disjoint_left]
    intro ω h1 h2
    simp only [Set.mem_pi, Finset.coe_range, Set.mem_Iio] at h1 h2
    rcases lt_trichotomy m n with h | h | h
    · have a := h1 m (by omega)
      have b := h2 m (by omega)
      rw [if_pos rfl] at a
      rw [if_neg (by omega)] at b
      simp only [Set.mem_setOf_eq] at a b
      rw [a] at b; simp at b
    · exact hmn h
    · have a := h1 n (by omega)
      have b := h2 n (by omega)
      rw [if_pos rfl] at b
      rw [if_neg (by omega)] at a
      simp only [Set.mem_setOf_eq] at a b
      rw [a] at b; simp at b
  · intro n
    exact MeasurableSet.pi (Finset.countable_toSet _) fun i _ => hmeas n i

/-- If there is a chance of acceptance, the loop ends with probability one. -/
theorem firstSome_ends {X Y : Type*} [MeasurableSpace X] (μ : Measure X) [IsProbabilityMeasure μ] (step : X → Option Y)
    (hn : MeasurableSet {x | step x = none}) (hA : μ {x | step x ≠ none} ≠ 0) :
    Measure.infinitePi (fun _ : ℕ => μ) {ω | firstSome step ω = none} = 0 := by
  have hr : μ {x | step x = none} < 1 := by
    have e : {x | step x ≠ none} = {x | step x = none}ᶜ := rfl
    rw [e, prob_compl_eq_one_sub hn] at hA
    by_contra h
    exact hA (tsub_eq_zero_of_le (not_lt.mp h))
  have hle : ∀ n : ℕ, Measure.infinitePi (fun _ : ℕ => μ) {ω | firstSome step ω = none} ≤ μ {x | step x = none} ^ n := by
    intro n
    have h1 : Measure.infinitePi (fun _ : ℕ => μ) (Set.pi (Finset.range n) (fun _ => {x | step x = none})) = μ {x | step x = none} ^ n := by
      rw [Measure.infinitePi_pi _ (fun i _ => hn), Finset.prod_const, Finset.card_range]
    rw [← h1]
    refine measure_mono fun ω hω i _ => ?_
    have hω' : firstSome step ω = none := hω
    classical
    unfold firstSome at hω'
    split_ifs at hω' with h
    · exact absurd (by convert hω') (Nat.find_spec h)
    · push Not at h
      exact h i
  have ht := ENNReal.tendsto_pow_atTop_nhds_zero_of_lt_one hr
  exact le_antisymm (ge_of_tendsto' ht hle) zero_le

end Apop.Rng
