import Mathlib.Data.Real.Basic
import Mathlib.Algebra.BigOperators.Group.List.Basic
import Mathlib.Algebra.BigOperators.Ring.List
import Mathlib.Algebra.Order.BigOperators.Group.List
import Mathlib.Tactic.Linarith
import Mathlib.Tactic.FieldSimp
import Mathlib.Tactic.Ring
import Mathlib.Tactic.Positivity

/-! # C97: the goodness-of-fit test of two histograms -/

namespace Apop.Gof

/-! ## The model (exact arithmetic) -/

/-- A bin of the observed histogram: its weight, and what `apop_p` of the expected model is there, apop_hist.m4.c:66-67. -/
structure Bin where
  obs : ℝ
  exp : ℝ

/-- The statistic; `inf`: `GSL_POSINF`. -/
inductive Stat where
  | fin (x : ℝ)
  | inf

/-- The loop, apop_hist.m4.c:65-77: the bins left, `diff` and `df` so far. -/
noncomputable def loop : List Bin → ℝ → ℤ → Stat × ℤ
  | [], diff, df => (.fin diff, df)
  | b :: bs, diff, df => by
    classical exact
      if b.exp = 0 then (.inf, df)
      else if b.obs = 0 then loop bs diff (df - 1)
      else loop bs (diff + (b.obs - b.exp) ^ 2 / b.exp) df

/-- What is returned, lines 78-86. -/
structure Out where
  stat : Stat
  df : ℤ
  p : ℝ
  confidence : ℝ

/-- `apop_histograms_test_goodness_of_fit`, apop_hist.m4.c:62-87; `Q` is `gsl_cdf_chisq_Q`. -/
noncomputable def goodnessOfFit (Q : Stat → ℤ → ℝ) (bs : List Bin) : Out :=
  let r := loop bs 0 bs.length
  ⟨r.1, r.2 - 1, Q r.1 (r.2 - 1), 1 - Q r.1 (r.2 - 1)⟩

/-! ## Specification -/

/-- The bins that are counted: those with an observation. -/
noncomputable def counted (bs : List Bin) : List Bin := by classical exact bs.filter fun b => b.obs ≠ 0

/-- The documented sum, over the bins given. -/
noncomputable def chi (bs : List Bin) : ℝ := (bs.map fun b => (b.obs - b.exp) ^ 2 / b.exp).sum

/-- Pearson's statistic, of counts against probabilities: the counts expected are the total times the probabilities. -/
noncomputable def pearson (bs : List Bin) : ℝ :=
  (bs.map fun b => (b.obs - (bs.map Bin.obs).sum * b.exp) ^ 2 / ((bs.map Bin.obs).sum * b.exp)).sum

/-! ## Proofs -/

theorem loop_eq : ∀ (bs : List Bin) (diff : ℝ) (df : ℤ), (∀ b ∈ bs, b.exp ≠ 0) →
    loop bs diff df = (.fin (diff + chi (counted bs)), df - (bs.length - (counted bs).length))
  | [], diff, df, _ => by simp [loop, chi, counted]
  | b :: bs, diff, df, h => by
    have hb := h b (by simp)
    have ht : ∀ b ∈ bs, b.exp ≠ 0 := fun b hb => h b (by simp [hb])
    by_cases h0 : b.obs = 0
    · have hc : counted (b :: bs) = counted bs := by simp [counted, h0]
      rw [loop, if_neg hb, if_pos h0, loop_eq bs _ _ ht, hc]
      congr 1
      simp only [List.length_cons]
      push_cast; ring
    · have hc : counted (b :: bs) = b :: counted bs := by simp [counted, h0]
      rw [loop, if_neg hb, if_neg h0, loop_eq bs _ _ ht, hc]
      congr 1
      · simp [chi]; ring
      · simp

/-- **C97.** For any histograms, if no bin's expected value is zero: the statistic is the sum of (o - e)²/e over the bins with an observation, the degrees of freedom are their number less one, the p value is the upper tail of the χ² distribution there, and the confidence is the rest. -/
theorem C97_statistic (Q : Stat → ℤ → ℝ) (bs : List Bin) (h : ∀ b ∈ bs, b.exp ≠ 0) :
    goodnessOfFit Q bs = ⟨.fin (chi (counted bs)), (counted bs).length - 1, Q (.fin (chi (counted bs))) ((counted bs).length - 1), 1 - Q (.fin (chi (counted bs))) ((counted bs).length - 1)⟩ := by
  unfold goodnessOfFit
  rw [loop_eq bs 0 _ h]
  simp

/-- **C97 (impossible).** If there is a bin whose expected value is zero, the statistic is infinite. -/
theorem C97_impossible (Q : Stat → ℤ → ℝ) (bs : List Bin) (h : ∃ b ∈ bs, b.exp = 0) : (goodnessOfFit Q bs).stat = .inf := by
  have : ∀ (bs : List Bin) (diff : ℝ) (df : ℤ), (∃ b ∈ bs, b.exp = 0) → (loop bs diff df).1 = .inf := by
    intro bs
    induction bs with
    | nil => intro _ _ h; obtain ⟨b, hb, _⟩ := h; simp at hb
    | cons b bs ih =>
      intro diff df h
      rw [loop]
      by_cases h0 : b.exp = 0
      · rw [if_pos h0]
      · have : ∃ b ∈ bs, b.exp = 0 := by
          obtain ⟨c, hc, hz⟩ := h
          simp only [List.mem_cons] at hc
          rcases hc with rfl | hc
          · exact absurd hz h0
          · exact ⟨c, hc, hz⟩
        rw [if_neg h0]
        split
        · exact ih _ _ this
        · exact ih _ _ this
  exact this bs 0 _ h

theorem chi_zero : ∀ (bs : List Bin), (∀ b ∈ bs, 0 < b.exp) → (0 ≤ chi bs ∧ (chi bs = 0 ↔ ∀ b ∈ bs, b.obs = b.exp))
  | [], _ => by simp [chi]
  | b :: bs, h => by
    obtain ⟨h1, h2⟩ := chi_zero bs fun b hb => h b (by simp [hb])
    have hb := h b (by simp)
    have hn : 0 ≤ (b.obs - b.exp) ^ 2 / b.exp := by positivity
    have hc : chi (b :: bs) = (b.obs - b.exp) ^ 2 / b.exp + chi bs := by simp [chi]
    rw [hc]
    refine ⟨by linarith, ?_⟩
    constructor
    · intro he
      have e1 : (b.obs - b.exp) ^ 2 / b.exp = 0 := by linarith
      have e2 : chi bs = 0 := by linarith
      intro c hc
      simp only [List.mem_cons] at hc
      rcases hc with rfl | hc
      · rw [div_eq_zero_iff] at e1
        rcases e1 with e1 | e1
        · have := pow_eq_zero_iff (two_ne_zero) |>.1 e1
          linarith
        · exact absurd e1 hb.ne'
      · exact h2.1 e2 c hc
    · intro he
      rw [h2.2 fun c hc => he c (by simp [hc]), he b (by simp)]
      simp

/-- **C97 (zero).** With positive expected values the statistic is never negative, and zero just if each bin that has an observation has what is expected. -/
theorem C97_zero_iff (Q : Stat → ℤ → ℝ) (bs : List Bin) (h : ∀ b ∈ bs, 0 < b.exp) :
    ∃ x, (goodnessOfFit Q bs).stat = .fin x ∧ 0 ≤ x ∧ (x = 0 ↔ ∀ b ∈ bs, b.obs ≠ 0 → b.obs = b.exp) := by
  rw [C97_statistic Q bs fun b hb => (h b hb).ne']
  obtain ⟨h1, h2⟩ := chi_zero (counted bs) fun b hb => h b (by simp [counted] at hb; exact hb.1)
  refine ⟨_, rfl, h1, h2.trans ?_⟩
  constructor
  · intro hh b hb h0
    exact hh b (by simp [counted, hb, h0])
  · intro hh b hb
    simp [counted] at hb
    exact hh b hb.1 hb.2

theorem chi_skipped : ∀ (bs : List Bin), (∀ b ∈ bs, b.exp ≠ 0) → chi bs = chi (counted bs) + ((bs.filter fun b => by classical exact decide (b.obs = 0)).map Bin.exp).sum
  | [], _ => by simp [chi, counted]
  | b :: bs, h => by
    have ih := chi_skipped bs fun b hb => h b (by simp [hb])
    have hb := h b (by simp)
    have hc : chi (b :: bs) = (b.obs - b.exp) ^ 2 / b.exp + chi bs := by simp [chi]
    by_cases h0 : b.obs = 0
    · have hc' : counted (b :: bs) = counted bs := by simp [counted, h0]
      rw [hc, hc', ih, h0]
      simp only [h0, List.filter_cons, decide_true, if_true, List.map_cons, List.sum_cons]
      field_simp
      ring
    · have hc' : counted (b :: bs) = b :: counted bs := by simp [counted, h0]
      have : chi (b :: counted bs) = (b.obs - b.exp) ^ 2 / b.exp + chi (counted bs) := by simp [chi]
      rw [hc, hc', ih, this]
      simp [h0]
      ring

/-- **C97 (the sum over all bins) fails**: the sum documented is over all bins, and one without observation has (0 - e)²/e = e. What is given is smaller by the expected values of the bins without observations. -/
theorem C97_skipped_refuted (Q : Stat → ℤ → ℝ) (bs : List Bin) (h : ∀ b ∈ bs, b.exp ≠ 0) :
    ∃ x, (goodnessOfFit Q bs).stat = .fin x ∧ chi bs = x + ((bs.filter fun b => by classical exact decide (b.obs = 0)).map Bin.exp).sum := by
  rw [C97_statistic Q bs h]
  exact ⟨_, rfl, chi_skipped bs h⟩

/-- So a model that puts half the mass where nothing was ever observed can be a perfect fit: two bins, half expected in each, and one half, the whole, observed in the first. -/
theorem C97_empty_bin_refuted (Q : Stat → ℤ → ℝ) : (goodnessOfFit Q [⟨1 / 2, 1 / 2⟩, ⟨0, 1 / 2⟩]).stat = .fin 0 := by
  rw [C97_statistic Q _ (by intro b hb; simp at hb; rcases hb with rfl | rfl <;> norm_num)]
  simp [chi, counted]

theorem sum_map_div (l : List Bin) (c : ℝ) : (l.map fun b => b.obs / c).sum = (l.map Bin.obs).sum / c := by
  induction l with
  | nil => simp
  | cons a l ih => simp [ih, add_div]

/-- **C97 (Pearson's statistic) fails**: for weights that sum to one, as for histograms that have been normalised, what is given is Pearson's statistic divided by the number of observations: so, however many the observations, χ²'s upper tail is taken at a point that is too low. -/
theorem C97_normalised_refuted (Q : Stat → ℤ → ℝ) (bs : List Bin) (hexp : ∀ b ∈ bs, b.exp ≠ 0) (hobs : ∀ b ∈ bs, b.obs ≠ 0) (hN : (bs.map Bin.obs).sum ≠ 0) :
    ∃ x, (goodnessOfFit Q (bs.map fun b => ⟨b.obs / (bs.map Bin.obs).sum, b.exp⟩)).stat = .fin x ∧ pearson bs = (bs.map Bin.obs).sum * x := by
  set N := (bs.map Bin.obs).sum
  rw [C97_statistic]
  · refine ⟨_, rfl, ?_⟩
    have hc : counted (bs.map fun b => ⟨b.obs / N, b.exp⟩) = bs.map fun b => ⟨b.obs / N, b.exp⟩ := by
      unfold counted
      rw [List.filter_eq_self]
      intro a ha
      simp only [List.mem_map] at ha
      obtain ⟨b, hb, rfl⟩ := ha
      simp [hobs b hb, hN]
    rw [hc]
    unfold pearson chi
    rw [List.map_map, ← List.sum_map_mul_left]
    congr 1
    apply List.map_congr_left
    intro b hb
    have := hexp b hb
    show (b.obs - N * b.exp) ^ 2 / (N * b.exp) = N * ((b.obs / N - b.exp) ^ 2 / b.exp)
    field_simp
  · intro a ha
    simp only [List.mem_map] at ha
    obtain ⟨b, hb, rfl⟩ := ha
    exact hexp b hb

/-- **C97 (counts) fails**: for weights that are counts, in perfect proportion to the expected values, Pearson's statistic is zero, and what is given is the square of the number of observations less one. -/
theorem C97_counts_refuted (Q : Stat → ℤ → ℝ) (es : List ℝ) (hpos : ∀ e ∈ es, 0 < e) (hsum : es.sum = 1) (N : ℝ) (hN : 0 < N) :
    (goodnessOfFit Q (es.map fun e => ⟨N * e, e⟩)).stat = .fin ((N - 1) ^ 2) ∧ pearson (es.map fun e => ⟨N * e, e⟩) = 0 := by
  constructor
  · rw [C97_statistic]
    · have hc : counted (es.map fun e => ⟨N * e, e⟩) = es.map fun e => ⟨N * e, e⟩ := by
        unfold counted
        rw [List.filter_eq_self]
        intro a ha
        simp only [List.mem_map] at ha
        obtain ⟨b, hb, rfl⟩ := ha
        simp [(hpos b hb).ne', hN.ne']
      rw [hc]
      simp only [Stat.fin.injEq]
      have : chi (es.map fun e => ⟨N * e, e⟩) = (N - 1) ^ 2 * es.sum := by
        unfold chi
        have hes : es.sum = (es.map fun e => e).sum := by simp
        rw [hes, List.map_map, ← List.sum_map_mul_left]
        congr 1
        apply List.map_congr_left
        intro e he
        have := (hpos e he).ne'
        show (N * e - e) ^ 2 / e = (N - 1) ^ 2 * e
        field_simp
      rw [this, hsum, mul_one]
    · intro a ha
      simp only [List.mem_map] at ha
      obtain ⟨b, hb, rfl⟩ := ha
      exact (hpos b hb).ne'
  · have ht : ((es.map fun e => (⟨N * e, e⟩ : Bin)).map Bin.obs).sum = N := by
      rw [List.map_map]
      show (es.map fun e => N * e).sum = N
      rw [List.sum_map_mul_left]
      simp [hsum]
    unfold pearson
    rw [ht, List.map_map]
    have : (es.map ((fun b : Bin => (b.obs - N * b.exp) ^ 2 / (N * b.exp)) ∘ fun e => ⟨N * e, e⟩)) = es.map fun _ => 0 := by
      apply List.map_congr_left
      intro e _
      simp
    rw [this]
    simp

/-- Nonvacuity: observed 1/4 and 3/4, expected a half each. -/
example (Q : Stat → ℤ → ℝ) : (goodnessOfFit Q [⟨1 / 4, 1 / 2⟩, ⟨3 / 4, 1 / 2⟩]).stat = .fin (1 / 4) := by
  rw [C97_statistic Q _ (by intro b hb; simp at hb; rcases hb with rfl | rfl <;> norm_num)]
  norm_num [chi, counted]

end Apop.Gof
