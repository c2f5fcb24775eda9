import Verif.Dist.Estimate
import Mathlib.Probability.Moments.Variance
import Mathlib.Probability.Distributions.Gaussian.Real
import Mathlib.Probability.Independence.Basic
import Mathlib.MeasureTheory.Measure.Lebesgue.Basic

/-!
# C199: draws, CDF and variance reports of the Bernoulli and the Normal

Exact arithmetic over the reals. -/

namespace Apop.Dist
open Real Stats MeasureTheory ProbabilityTheory

/-! ## The models -/

/-- `bernoulli_rng`, model/apop_bernoulli.c:50-53, with `u` the number of `gsl_rng_uniform`. -/
noncomputable def bernoulliDraw (p u : ℝ) : ℝ := if u < p then 1 else 0

/-- `bernoulli_cdf`, model/apop_bernoulli.c:55-66 (`none` is NaN). -/
noncomputable def bernoulliCdf (p : ℝ) : Option ℝ → Option ℝ
  | none => none
  | some x => some (if x < 0 then 0 else if x < 1 then 1 - p else 1)

/-- The element of the `<Covariance>` page, model/apop_bernoulli.c:38-39, `p` being the estimate. -/
def bernoulliPage (p : ℝ) : ℝ := p * (1 - p)

/-- Elements (0,0) and (1,1) of the `<Covariance>` page, model/apop_normal.c:92-93, from the estimated mean and
variance and the number of data; the others are zero. -/
noncomputable def normalPage (mean var : ℝ) (tsize : ℕ) : ℝ × ℝ := (mean / tsize, 2 * var ^ 2 / (tsize - 1))

/-- `normal_predict`, model/apop_normal.c:122-133: the prediction and the `<Covariance>` page; `n` is the number of
data the model was estimated from, `none` if it has no data. -/
noncomputable def normalPredict (mu sigma : ℝ) : Option ℕ → ℝ × ℝ
  | none => (mu, 0)
  | some n => (mu, sigma / √n)

/-! ## Specification -/

/-- The probability that a number uniform on [0,1) is in a set. -/
noncomputable def unif : Measure ℝ := volume.restrict (Set.Ico 0 1)

/-- `n` observations, independent and from a law with mean `m` and variance `v`. -/
structure Sample {Ω : Type*} [MeasurableSpace Ω] (μ : Measure Ω) (n : ℕ) (X : Fin n → Ω → ℝ) (m v : ℝ) : Prop where
  l2 : ∀ i, MemLp (X i) 2 μ
  indep : Pairwise fun i j => IndepFun (X i) (X j) μ
  mean : ∀ i, ∫ ω, X i ω ∂μ = m
  var : ∀ i, variance (X i) μ = v

/-- The observations as a data set. -/
noncomputable def dataOf {Ω : Type*} {n : ℕ} (X : Fin n → Ω → ℝ) (ω : Ω) : D := ⟨some (List.ofFn fun i => X i ω), none⟩

/-! ## Proofs -/

theorem draw_le (p x : ℝ) (h1 : p ≤ 1) : {u : ℝ | u ∈ Set.Ico (0 : ℝ) 1 ∧ bernoulliDraw p u ≤ x} =
    if x < 0 then ∅ else if x < 1 then Set.Ico (0 ⊔ p) 1 else Set.Ico 0 1 := by
  ext u
  by_cases hx : x < 0
  · rw [if_pos hx]
    simp only [Set.mem_ofPred_eq, Set.mem_empty_iff_false, iff_false, not_and, not_le]
    intro _
    unfold bernoulliDraw
    split <;> linarith
  rw [if_neg hx]
  by_cases hx1 : x < 1
  · rw [if_pos hx1]
    simp only [Set.mem_ofPred_eq, Set.mem_Ico, sup_le_iff]
    unfold bernoulliDraw
    constructor
    · rintro ⟨⟨a, b⟩, h⟩
      refine ⟨⟨a, ?_⟩, b⟩
      by_contra hc
      rw [if_pos (not_le.1 hc)] at h
      linarith
    · rintro ⟨⟨a, h⟩, b⟩
      refine ⟨⟨a, b⟩, ?_⟩
      rw [if_neg (not_lt.2 h)]
      linarith
  · rw [if_neg hx1]
    simp only [Set.mem_ofPred_eq, Set.mem_Ico, and_iff_left_iff_imp]
    intro _
    unfold bernoulliDraw
    split <;> linarith

/-- **C199**: a Bernoulli draw is one with probability `p`, else zero. -/
theorem C199_bernoulli_draw (p : ℝ) (h0 : 0 ≤ p) (h1 : p ≤ 1) :
    unif {u | bernoulliDraw p u = 1} = ENNReal.ofReal p ∧ unif {u | bernoulliDraw p u = 0} = ENNReal.ofReal (1 - p) := by
  have e1 : {u | bernoulliDraw p u = 1} = Set.Iio p := by
    ext u; unfold bernoulliDraw; by_cases h : u < p <;> simp [h]
  have e0 : {u | bernoulliDraw p u = 0} = Set.Ici p := by
    ext u; unfold bernoulliDraw; by_cases h : u < p
    · simp [h]
    · simp [h, not_lt.1 h]
  have i1 : Set.Iio p ∩ Set.Ico 0 1 = Set.Ico 0 p := by
    ext u; simp only [Set.mem_inter_iff, Set.mem_Iio, Set.mem_Ico]
    constructor
    · rintro ⟨a, b, c⟩; exact ⟨b, a⟩
    · rintro ⟨a, b⟩; exact ⟨b, a, by linarith⟩
  have i0 : Set.Ici p ∩ Set.Ico 0 1 = Set.Ico p 1 := by
    ext u; simp only [Set.mem_inter_iff, Set.mem_Ici, Set.mem_Ico]
    constructor
    · rintro ⟨a, b, c⟩; exact ⟨a, c⟩
    · rintro ⟨a, b⟩; exact ⟨a, by linarith, b⟩
  constructor
  · rw [e1, unif, Measure.restrict_apply measurableSet_Iio, i1, Real.volume_Ico, sub_zero]
  · rw [e0, unif, Measure.restrict_apply measurableSet_Ici, i0, Real.volume_Ico]

/-- **C199**: the Bernoulli's CDF at any number is the probability that a draw is at most that number. -/
theorem C199_bernoulli_cdf (p x : ℝ) (h0 : 0 ≤ p) (h1 : p ≤ 1) :
    ∃ c, bernoulliCdf p (some x) = some c ∧ 0 ≤ c ∧ unif {u | bernoulliDraw p u ≤ x} = ENNReal.ofReal c := by
  refine ⟨_, rfl, by split <;> [exact le_rfl; (split <;> linarith)], ?_⟩
  have hm : unif {u | bernoulliDraw p u ≤ x} = volume {u : ℝ | u ∈ Set.Ico (0 : ℝ) 1 ∧ bernoulliDraw p u ≤ x} := by
    unfold unif
    rw [Measure.restrict_apply' measurableSet_Ico]
    congr 1
    ext u; simp [and_comm]
  rw [hm, draw_le p x h1, sup_eq_right.2 h0]
  by_cases hx : x < 0
  · simp [hx]
  · by_cases hx1 : x < 1
    · simp [hx, hx1]
    · simp [hx, hx1]

example : bernoulliCdf (1/4) (some (1/2)) = some (1 - 1/4) := by
  simp only [bernoulliCdf]; norm_num

section
variable {Ω : Type*} [MeasurableSpace Ω] {μ : Measure Ω} {n : ℕ} {X : Fin n → Ω → ℝ} {m v : ℝ}

theorem var_average [IsProbabilityMeasure μ] (h : Sample μ n X m v) :
    variance (fun ω => (∑ i, X i ω) / n) μ = v / n := by
  have hs : variance (∑ i ∈ Finset.univ, X i) μ = n * v := by
    rw [IndepFun.variance_sum (fun i _ => h.l2 i) (fun i _ j _ hij => h.indep hij)]
    simp [h.var]
  have e : (fun ω => (∑ i, X i ω) / n) = fun ω => (1 / (n : ℝ)) * (∑ i ∈ Finset.univ, X i) ω := by
    funext ω
    rw [Finset.sum_apply]
    ring
  rw [e, variance_const_mul, hs]
  by_cases hn : (n : ℝ) = 0
  · simp [hn]
  · field_simp

theorem dataOf_onePart (hn : 0 < n) (ω : Ω) : OnePart (dataOf X ω) := by
  refine ⟨fun m hm => by simp [dataOf] at hm, ?_, Or.inr rfl⟩
  have : (dataOf X ω).cells = List.ofFn fun i => X i ω := by simp [dataOf, D.cells]
  rw [this]
  intro e
  have := congrArg List.length e
  simp at this
  omega

theorem mean_dataOf (ω : Ω) : Dist.mean (dataOf X ω) = (∑ i, X i ω) / n := by
  have : (dataOf X ω).cells = List.ofFn fun i => X i ω := by simp [dataOf, D.cells]
  unfold Dist.mean
  rw [this, List.sum_ofFn, List.length_ofFn]

/-- What the Normal's estimation reports for the mean. -/
theorem C199_normal_mean_variance [IsProbabilityMeasure μ] (h : Sample μ n X m v) (hn : 0 < n) :
    ∃ est : Ω → ℝ, (∀ ω, ∃ sd, normalEst (dataOf X ω) = .ok (est ω, sd)) ∧ variance est μ = v / n := by
  refine ⟨fun ω => Dist.mean (dataOf X ω), fun ω => ?_, ?_⟩
  · obtain ⟨sd, e, _⟩ := C76_normal_mean (dataOf X ω) (dataOf_onePart hn ω)
    exact ⟨sd, e⟩
  · rw [funext (fun ω => mean_dataOf (X := X) ω)]
    exact var_average h

/-- **C199, counterexample for every law**: the `<Covariance>` page has the mean where the variance should be: with the
true mean and variance of the observations, its first element is the variance of the estimated mean only if the mean is
equal to the variance, and it is negative if the mean is. -/
theorem C199_normal_page_refuted [IsProbabilityMeasure μ] (h : Sample μ n X m v) (hn : 0 < n) :
    ∃ est : Ω → ℝ, (∀ ω, ∃ sd, normalEst (dataOf X ω) = .ok (est ω, sd)) ∧
      ((normalPage m v n).1 = variance est μ ↔ m = v) ∧ (m < 0 → (normalPage m v n).1 < 0) := by
  obtain ⟨est, h1, h2⟩ := C199_normal_mean_variance h hn
  have hn' : (0 : ℝ) < n := by exact_mod_cast hn
  refine ⟨est, h1, ?_, fun hm => div_neg_of_neg_of_pos hm hn'⟩
  rw [h2]
  unfold normalPage
  simp only
  rw [div_left_inj' hn'.ne']

/-- **C199**: the Normal's prediction is its mean, whatever the data given; with the standard deviation of the
observations as σ, the element of its `<Covariance>` page is the standard deviation of the estimated mean, … -/
theorem C199_normal_predict [IsProbabilityMeasure μ] (h : Sample μ n X m v) (hn : 0 < n) (hv : 0 ≤ v) :
    ∃ est : Ω → ℝ, (∀ ω, ∃ sd, normalEst (dataOf X ω) = .ok (est ω, sd)) ∧
      normalPredict m (√v) (some n) = (m, √(variance est μ)) := by
  obtain ⟨est, h1, h2⟩ := C199_normal_mean_variance h hn
  refine ⟨est, h1, ?_⟩
  rw [h2, Real.sqrt_div hv]
  rfl

/-- … **C199, counterexample**: so it is not the variance, unless that is zero or one. -/
theorem C199_normal_predict_refuted [IsProbabilityMeasure μ] (h : Sample μ n X m v) (hn : 0 < n) (hv : 0 < v) (h1 : v ≠ n) :
    ∃ est : Ω → ℝ, (∀ ω, ∃ sd, normalEst (dataOf X ω) = .ok (est ω, sd)) ∧
      (normalPredict m (√v) (some n)).2 ≠ variance est μ := by
  obtain ⟨est, e1, e2⟩ := C199_normal_mean_variance h hn
  have hn' : (0 : ℝ) < n := by exact_mod_cast hn
  refine ⟨est, e1, ?_⟩
  rw [e2]
  unfold normalPredict
  simp only
  rw [← Real.sqrt_div hv.le]
  intro e
  have hp : 0 < v / n := div_pos hv hn'
  have h3 : v / n = (v / n) * (v / n) := by
    conv_lhs => rw [← Real.mul_self_sqrt hp.le, e]
  have h4 : v / n = 1 := by
    have := mul_left_cancel₀ hp.ne' (show v / n * 1 = v / n * (v / n) by rw [mul_one]; exact h3)
    exact this.symm
  rw [div_eq_one_iff_eq hn'.ne'] at h4
  exact h1 h4

theorem bernoulliEst_dataOf (hX : ∀ i ω, X i ω = 0 ∨ X i ω = 1) (ω : Ω) : bernoulliEst (dataOf X ω) = (∑ i, X i ω) / n := by
  unfold bernoulliEst
  rw [mapSum_eq]
  have hc : (dataOf X ω).cells = List.ofFn fun i => X i ω := by simp [dataOf, D.cells]
  have ht : (dataOf X ω).tsize = n := by simp [dataOf, D.tsize, D.vsize, D.msize1]
  rw [hc, ht]
  congr 1
  rw [List.map_ofFn, List.sum_ofFn]
  refine Finset.sum_congr rfl (fun i _ => ?_)
  simp only [Function.comp]
  rcases hX i ω with e | e <;> simp [e]

theorem var_zero_one [IsProbabilityMeasure μ] {Y : Ω → ℝ} (hY : ∀ ω, Y ω = 0 ∨ Y ω = 1) (hm : ∫ ω, Y ω ∂μ = m) (hl : MemLp Y 2 μ) :
    variance Y μ = m * (1 - m) := by
  rw [variance_eq_sub hl]
  have : (Y ^ 2) = Y := by
    funext ω
    simp only [Pi.pow_apply]
    rcases hY ω with e | e <;> simp [e]
  rw [this, hm]
  ring

/-- **C199**: for observations of zero and one, independent, with probability `p` of a one, the Bernoulli's estimate has
the variance `p(1-p)/n`, … -/
theorem C199_bernoulli_variance [IsProbabilityMeasure μ] (h : Sample μ n X m v) (hX : ∀ i ω, X i ω = 0 ∨ X i ω = 1) (hn : 0 < n) :
    variance (fun ω => bernoulliEst (dataOf X ω)) μ = bernoulliPage m / n := by
  rw [funext (fun ω => bernoulliEst_dataOf hX ω), var_average h, ← h.var ⟨0, hn⟩,
    var_zero_one (hX ⟨0, hn⟩) (h.mean ⟨0, hn⟩) (h.l2 ⟨0, hn⟩)]
  rfl

/-- … **C199, counterexample**: while the `<Covariance>` page, with the true probability, has `p(1-p)`: the variance of one
observation, not of the estimate, for every sample of more than one. -/
theorem C199_bernoulli_page_refuted [IsProbabilityMeasure μ] (h : Sample μ n X m v) (hX : ∀ i ω, X i ω = 0 ∨ X i ω = 1) (hn : 1 < n)
    (h0 : 0 < m) (h1 : m < 1) :
    bernoulliPage m = n * variance (fun ω => bernoulliEst (dataOf X ω)) μ ∧
      bernoulliPage m ≠ variance (fun ω => bernoulliEst (dataOf X ω)) μ := by
  have hn' : (1 : ℝ) < n := by exact_mod_cast hn
  rw [C199_bernoulli_variance h hX (by omega)]
  have hp : 0 < bernoulliPage m := mul_pos h0 (by linarith)
  refine ⟨by field_simp, fun e => ?_⟩
  rw [eq_div_iff (by linarith)] at e
  nlinarith

end

/-! ## Examples: such samples exist for every size -/

/-- Independent values of a function with a second moment are a sample. -/
theorem sample_of_law (ν : Measure ℝ) [IsProbabilityMeasure ν] (f : ℝ → ℝ) (hf : Measurable f) (hν : MemLp f 2 ν) (n : ℕ) :
    Sample (Measure.pi fun _ : Fin n => ν) n (fun i ω => f (ω i)) (∫ x, f x ∂ν) (variance f ν) := by
  have mp : ∀ i : Fin n, MeasurePreserving (fun ω : Fin n → ℝ => ω i) (Measure.pi fun _ : Fin n => ν) ν :=
    fun i => measurePreserving_eval (fun _ : Fin n => ν) i
  refine ⟨fun i => ?_, fun i j hij => ?_, fun i => ?_, fun i => ?_⟩
  · exact hν.comp_measurePreserving (mp i)
  · exact (iIndepFun_pi (μ := fun _ : Fin n => ν) (X := fun _ => f) (fun i => hf.aemeasurable)).indepFun hij
  · have e : ∫ x, f x ∂(Measure.map (fun ω : Fin n → ℝ => ω i) (Measure.pi fun _ : Fin n => ν)) = ∫ ω, f (ω i) ∂(Measure.pi fun _ : Fin n => ν) :=
      integral_map (mp i).measurable.aemeasurable hf.aestronglyMeasurable
    rw [(mp i).map_eq] at e
    exact e.symm
  · have e : variance f (Measure.map (fun ω : Fin n → ℝ => ω i) (Measure.pi fun _ : Fin n => ν)) =
        variance (f ∘ fun ω : Fin n → ℝ => ω i) (Measure.pi fun _ : Fin n => ν) :=
      variance_map hf.aemeasurable (mp i).measurable.aemeasurable
    rw [(mp i).map_eq] at e
    exact e.symm

instance : IsProbabilityMeasure unif := ⟨by simp [unif]⟩

/-- Draws of the library's Bernoulli are such a sample, for every size and probability. -/
theorem sample_of_draws (p : ℝ) (h0 : 0 ≤ p) (h1 : p ≤ 1) (n : ℕ) :
    Sample (Measure.pi fun _ : Fin n => unif) n (fun i ω => bernoulliDraw p (ω i)) p (variance (bernoulliDraw p) unif) := by
  have hm : Measurable (bernoulliDraw p) := Measurable.ite measurableSet_Iio measurable_const measurable_const
  have hl : MemLp (bernoulliDraw p) 2 unif := by
    refine MemLp.of_bound hm.aestronglyMeasurable 1 (Filter.Eventually.of_forall fun u => ?_)
    unfold bernoulliDraw
    split <;> simp
  have hi : ∫ u, bernoulliDraw p u ∂unif = p := by
    have e : bernoulliDraw p = Set.indicator (Set.Iio p) (fun _ => (1 : ℝ)) := by
      funext u
      by_cases h : u < p <;> simp [bernoulliDraw, h]
    have e1 : Set.Iio p = {u | bernoulliDraw p u = 1} := by
      ext u; unfold bernoulliDraw; by_cases h : u < p <;> simp [h]
    rw [e, integral_indicator measurableSet_Iio, setIntegral_const, Measure.real, e1, (C199_bernoulli_draw p h0 h1).1,
      ENNReal.toReal_ofReal h0]
    simp
  have := sample_of_law unif (bernoulliDraw p) hm hl n
  rwa [hi] at this

/-- Ten draws with probability 1/2: the page says 1/4, the variance of the estimate is 1/40. -/
example : bernoulliPage (1 / 2) = 1 / 4 ∧
    variance (fun ω => bernoulliEst (dataOf (fun (i : Fin 10) (ω : Fin 10 → ℝ) => bernoulliDraw (1 / 2) (ω i)) ω)) (Measure.pi fun _ : Fin 10 => unif) = 1 / 40 := by
  have := C199_bernoulli_variance (sample_of_draws (1 / 2) (by norm_num) (by norm_num) 10)
    (fun i ω => by unfold bernoulliDraw; split <;> simp) (by norm_num)
  constructor
  · unfold bernoulliPage; norm_num
  · rw [this]; unfold bernoulliPage; norm_num

/-- Five observations from a Normal with mean -3 and variance 4: the page says that the variance of the mean is -3/5. -/
example : ∃ est : (Fin 5 → ℝ) → ℝ, variance est (Measure.pi fun _ : Fin 5 => gaussianReal (-3) 4) = 4 / 5 ∧ (normalPage (-3) 4 5).1 = -3 / 5 := by
  have h := sample_of_law (gaussianReal (-3) 4) id measurable_id (memLp_id_gaussianReal 2) 5
  simp only [id] at h
  rw [integral_id_gaussianReal] at h
  rw [variance_id_gaussianReal] at h
  obtain ⟨est, _, e⟩ := C199_normal_mean_variance h (by norm_num)
  exact ⟨est, by rw [e]; norm_num, by unfold normalPage; norm_num⟩

end Apop.Dist
