import Verif.Update.Weighted
import Verif.Stats.Moments
import Mathlib.Probability.Distributions.Gaussian.Real
import Mathlib.MeasureTheory.Measure.WithDensity

/-! # C173: the entropy of a model and the divergence of two by random draws (apop_stats.m4.c:657-703, 756-775)

`X`: what a draw is, a row of data. `ll x`, `p x`: the model's log likelihood and probability of the data set that has the one row `x`. Draws are an infinite sequence of independent elements of the distribution that the model's `draw` method draws from. Exact arithmetic over the reals. -/

namespace Apop.Entropy
open MeasureTheory ProbabilityTheory Filter Real
open scoped NNReal ENNReal

variable {X : Type*}

/-- `norment`, apop_stats.m4.c:657-660. -/
noncomputable def norment (sigma : ℝ) : ℝ := (log (2 * π * sigma ^ 2) + 1) / 2

/-- What the entropy depends on: whether log likelihood, probability and draw methods are those of `apop_normal` (the hash of the table, taken as exact), the second parameter, and the log likelihood of a row. -/
structure EModel (X : Type*) where
  isNormal : Bool
  sigma : ℝ
  ll : X → ℝ

/-- `apop_model_entropy`, apop_stats.m4.c:683-703, with the `draws` made. (The log likelihood is taken to be finite.) -/
noncomputable def modelEntropy (m : EModel X) (draws : List X) : Option ℝ :=
  if m.isNormal then some (norment m.sigma) else (Stats.vectorMean (some (draws.map m.ll)) none).map (- ·)

/-- A `double` that is a number or plus infinity. -/
inductive Ext where
  | fin (x : ℝ)
  | inf

/-- `div /= draw_ct`. -/
noncomputable def Ext.over (n : ℕ) : Ext → Ext
  | .fin x => .fin (x / n)
  | .inf => .inf

/-- The loop of `apop_kl_divergence` by draws, apop_stats.m4.c:759-772 (in one thread): `p` over `q` at each draw; the loop ends at a draw to which the second model gives no probability, with `log(p/0)` added. -/
noncomputable def klRun (p q : X → ℝ) : List X → ℝ → Ext
  | [], acc => .fin acc
  | x :: xs, acc =>
    if q x = 0 then (if p x = 0 then .fin acc else .inf)
    else klRun p q xs (acc + if p x = 0 then 0 else log (p x / q x))

/-- `apop_kl_divergence`, apop_stats.m4.c:756-775, from a model that is not a PMF. -/
noncomputable def klDraws (p q : X → ℝ) (draws : List X) : Ext := (klRun p q draws 0).over draws.length

/-! ### Theorems -/

/-- **The Normal**: what is returned is the differential entropy, the integral of -ln(p)p with `p` the density of the Normal with that standard deviation, whatever its mean. -/
theorem C173_normal (m : EModel ℝ) (hm : m.isNormal = true) (mu : ℝ) (v : ℝ≥0) (hv : v ≠ 0) (hs : m.sigma ^ 2 = v) (draws : List ℝ) :
    modelEntropy m draws = some (∫ x, -log (gaussianPDFReal mu v x) * gaussianPDFReal mu v x) := by
  have hv' : (0 : ℝ) < v := by positivity
  have h1 : (fun x => -log (gaussianPDFReal mu v x)) = fun x => 1 / 2 * log (2 * π * v) + (x - mu) ^ 2 / (2 * v) := by
    funext x
    rw [gaussianPDFReal, log_mul (by positivity) (exp_ne_zero _), log_inv, log_exp, Real.log_sqrt (by positivity)]
    ring
  have hvar : ∫ x, (x - mu) ^ 2 ∂gaussianReal mu v = v := by
    have := variance_id_gaussianReal (μ := mu) (v := v)
    rw [variance_eq_integral (by fun_prop)] at this
    simpa [integral_id_gaussianReal] using this
  have hint : Integrable (fun x => (x - mu) ^ 2) (gaussianReal mu v) := by
    by_contra h
    rw [integral_undef h] at hvar
    exact hv'.ne hvar
  have h2 : ∫ x, -log (gaussianPDFReal mu v x) * gaussianPDFReal mu v x = ∫ x, -log (gaussianPDFReal mu v x) ∂gaussianReal mu v := by
    rw [integral_gaussianReal_eq_integral_smul hv]
    congr 1
    funext x
    simp [mul_comm]
  rw [h2, h1, integral_add (integrable_const _) (hint.div_const _), integral_div, hvar]
  simp only [modelEntropy, hm, if_true, norment, hs]
  congr 1
  simp
  field_simp

section law
variable [MeasurableSpace X]

/-- Averages of a function of the draws go to its mean. -/
theorem draws_law (P : Measure X) [IsProbabilityMeasure P] (F : X → ℝ) (hF : Measurable F) (hint : Integrable F P) :
    ∀ᵐ ω ∂Measure.infinitePi (fun _ : ℕ => P), Tendsto (fun m : ℕ => (∑ i ∈ Finset.range m, F (ω i)) / m) atTop (nhds (∫ x, F x ∂P)) := by
  have hpres : ∀ i : ℕ, MeasurePreserving (Function.eval i) (Measure.infinitePi (fun _ : ℕ => P)) P := fun i => measurePreserving_eval_infinitePi (fun _ : ℕ => P) i
  have hind : iIndepFun (fun (i : ℕ) (ω : ℕ → X) => F (ω i)) (Measure.infinitePi (fun _ : ℕ => P)) := iIndepFun_infinitePi (P := fun _ : ℕ => P) (X := fun _ => F) fun _ => hF
  have h := strong_law_ae_real (μ := Measure.infinitePi (fun _ : ℕ => P)) (fun i ω => F (ω i)) ?_ ?_ ?_
  · have e : (Measure.infinitePi (fun _ : ℕ => P))[fun ω => F (ω 0)] = ∫ θ, F θ ∂P := by
      have h3 := integral_map (μ := Measure.infinitePi (fun _ : ℕ => P)) (hpres 0).measurable.aemeasurable (f := F) hF.aestronglyMeasurable
      rw [(hpres 0).map_eq] at h3
      exact h3.symm
    rw [e] at h
    exact h
  · exact (hpres 0).integrable_comp_of_integrable hint
  · intro i j hij
    exact hind.indepFun hij
  · intro i
    refine ⟨(hF.comp (measurable_pi_apply _)).aemeasurable, (hF.comp (measurable_pi_apply _)).aemeasurable, ?_⟩
    have : ∀ j : ℕ, Measure.map (fun ω : ℕ → X => F (ω j)) (Measure.infinitePi (fun _ : ℕ => P)) = Measure.map F P := by
      intro j
      have h3 := Measure.map_map (μ := Measure.infinitePi (fun _ : ℕ => P)) hF (hpres j).measurable
      rw [(hpres j).map_eq] at h3
      exact h3.symm
    rw [this, this]

/-- The first `n` draws. -/
def first (ω : ℕ → X) (n : ℕ) : List X := (List.range n).map ω

theorem sum_first (F : X → ℝ) (ω : ℕ → X) (n : ℕ) : ((first ω n).map F).sum = ∑ i ∈ Finset.range n, F (ω i) := by
  rw [first, List.map_map, Finset.sum_range]
  rw [← List.sum_ofFn]
  congr 1
  apply List.ext_getElem <;> simp

/-- The distribution with density `p`. -/
noncomputable def law (μ : Measure X) (p : X → ℝ) : Measure X := μ.withDensity fun x => ENNReal.ofReal (p x)

theorem law_integral (μ : Measure X) (p F : X → ℝ) (hp : Measurable p) (h0 : ∀ x, 0 ≤ p x) : ∫ x, F x ∂law μ p = ∫ x, p x * F x ∂μ := by
  have e : (fun x => ENNReal.ofReal (p x)) = fun x => ((p x).toNNReal : ℝ≥0∞) := rfl
  rw [law, e, integral_withDensity_eq_integral_smul hp.real_toNNReal]
  congr 1
  funext x
  rw [NNReal.smul_def, Real.coe_toNNReal _ (h0 x), smul_eq_mul]

/-- **Any other model**: if its draws have the density `p` (with respect to any measure `μ`: on the line, or counting for a discrete model) and its log likelihood is ln p wherever draws fall, then with probability one the result tends to the entropy, the integral of -ln(p)p, as the number of draws grows. -/
theorem C173_draws (m : EModel X) (hm : m.isNormal = false) (μ : Measure X) (p : X → ℝ) (hp : Measurable p) (h0 : ∀ x, 0 ≤ p x) [IsProbabilityMeasure (law μ p)]
    (hl : Measurable m.ll) (hll : ∀ x, 0 < p x → m.ll x = log (p x)) (hint : Integrable m.ll (law μ p)) :
    ∀ᵐ ω ∂Measure.infinitePi (fun _ : ℕ => law μ p), ∃ e : ℕ → ℝ, (∀ n, modelEntropy m (first ω (n + 1)) = some (e n)) ∧ Tendsto e atTop (nhds (∫ x, -log (p x) * p x ∂μ)) := by
  filter_upwards [draws_law (law μ p) m.ll hl hint] with ω hω
  refine ⟨fun n => -((∑ i ∈ Finset.range (n + 1), m.ll (ω i)) / (n + 1 : ℕ)), fun n => ?_, ?_⟩
  · have hne : (first ω (n + 1)).map m.ll ≠ [] := by simp [first]
    simp only [modelEntropy, hm, Bool.false_eq_true, if_false]
    rw [Stats.C51_mean _ hne, sum_first]
    simp [first]
  · have h1 : ∫ x, -log (p x) * p x ∂μ = -∫ x, m.ll x ∂law μ p := by
      rw [law_integral μ p m.ll hp h0, ← integral_neg]
      congr 1
      funext x
      rcases (h0 x).lt_or_eq with h | h
      · rw [hll x h]; ring
      · rw [← h]; ring
    rw [h1]
    exact (hω.comp (tendsto_add_atTop_nat 1)).neg

theorem klRun_fin (p q : X → ℝ) : ∀ (xs : List X) (acc : ℝ), (∀ x ∈ xs, q x ≠ 0) → klRun p q xs acc = .fin (acc + (xs.map fun x => if p x = 0 then 0 else log (p x / q x)).sum)
  | [], acc, _ => by simp [klRun]
  | x :: xs, acc, h => by
    rw [klRun, if_neg (h x (by simp)), klRun_fin p q xs _ (fun y hy => h y (by simp [hy]))]
    simp [add_assoc]

theorem klRun_inf (p q : X → ℝ) : ∀ (xs : List X) (acc : ℝ), (∀ x ∈ xs, p x ≠ 0) → (∃ x ∈ xs, q x = 0) → klRun p q xs acc = .inf
  | [], acc, _, h => by simp at h
  | x :: xs, acc, h, h2 => by
    rw [klRun]
    by_cases hq : q x = 0
    · rw [if_pos hq, if_neg (h x (by simp))]
    · rw [if_neg hq]
      obtain ⟨y, hy, hy2⟩ := h2
      rcases List.mem_cons.1 hy with rfl | hy
      · exact absurd hy2 hq
      · exact klRun_inf p q xs _ (fun y hy => h y (by simp [hy])) ⟨y, hy, hy2⟩

/-- Something almost sure holds for all the draws. -/
theorem draws_all (P : Measure X) [IsProbabilityMeasure P] (S : X → Prop) (h : ∀ᵐ x ∂P, S x) : ∀ᵐ ω ∂Measure.infinitePi (fun _ : ℕ => P), ∀ i, S (ω i) := by
  rw [ae_all_iff]
  intro i
  exact (measurePreserving_eval_infinitePi (fun _ : ℕ => P) i).quasiMeasurePreserving.ae h

/-- Draws never fall where the density is zero. -/
theorem law_pos (μ : Measure X) (p : X → ℝ) (hp : Measurable p) (h0 : ∀ x, 0 ≤ p x) : ∀ᵐ x ∂law μ p, p x ≠ 0 := by
  rw [law, ae_withDensity_iff hp.ennreal_ofReal]
  refine Eventually.of_forall fun x hx => ?_
  intro h
  rw [h] at hx
  simp at hx

/-- **The divergence by draws**: if the second model gives probability to (almost) everything that the first draws, then with probability one the result tends to the integral of p·ln(p/q). -/
theorem C173_kl (μ : Measure X) (p q : X → ℝ) (hp : Measurable p) (h0 : ∀ x, 0 ≤ p x) (hq : Measurable q) [IsProbabilityMeasure (law μ p)]
    (hpos : ∀ᵐ x ∂law μ p, q x ≠ 0) (hint : Integrable (fun x => log (p x / q x)) (law μ p)) :
    ∀ᵐ ω ∂Measure.infinitePi (fun _ : ℕ => law μ p), ∃ d : ℕ → ℝ, (∀ n, klDraws p q (first ω n) = .fin (d n)) ∧ Tendsto d atTop (nhds (∫ x, p x * log (p x / q x) ∂μ)) := by
  filter_upwards [draws_law (law μ p) (fun x => log (p x / q x)) (hp.div hq).log hint, draws_all _ _ hpos, draws_all _ _ (law_pos μ p hp h0)] with ω h1 h2 h3
  refine ⟨fun n => (∑ i ∈ Finset.range n, log (p (ω i) / q (ω i))) / n, fun n => ?_, ?_⟩
  · have hmem : ∀ x ∈ first ω n, ∃ i, ω i = x := by
      intro x hx
      obtain ⟨i, _, rfl⟩ := List.mem_map.1 hx
      exact ⟨i, rfl⟩
    rw [klDraws, klRun_fin p q _ _ (fun x hx => by obtain ⟨i, rfl⟩ := hmem x hx; exact h2 i), zero_add]
    simp only
    rw [← sum_first (fun x => log (p x / q x))]
    have : (first ω n).map (fun x => if p x = 0 then 0 else log (p x / q x)) = (first ω n).map fun x => log (p x / q x) := by
      apply List.map_congr_left
      intro x hx
      obtain ⟨i, rfl⟩ := hmem x hx
      rw [if_neg (h3 i)]
    rw [this]
    simp [Ext.over, first]
  · rw [law_integral μ p _ hp h0] at h1
    exact h1

/-- **An infinite divergence**: if the first model draws, with positive probability, what has none in the second, then with probability one the result is infinite from some number of draws on. -/
theorem C173_kl_infinite (μ : Measure X) (p q : X → ℝ) (hp : Measurable p) (h0 : ∀ x, 0 ≤ p x) (hq : Measurable q) [IsProbabilityMeasure (law μ p)]
    (hpos : law μ p {x | q x = 0} ≠ 0) :
    ∀ᵐ ω ∂Measure.infinitePi (fun _ : ℕ => law μ p), ∃ N, ∀ n ≥ N, klDraws p q (first ω n) = .inf := by
  have hms : MeasurableSet {x | q x = 0} := hq (measurableSet_singleton 0)
  have hF : Measurable ({x | q x = 0}.indicator (1 : X → ℝ)) := measurable_one.indicator hms
  have hI : Integrable ({x | q x = 0}.indicator (1 : X → ℝ)) (law μ p) := (integrable_const (1 : ℝ)).indicator hms
  filter_upwards [draws_law (law μ p) _ hF hI, draws_all _ _ (law_pos μ p hp h0)] with ω h1 h3
  have hex : ∃ i, q (ω i) = 0 := by
    by_contra hne
    push Not at hne
    have hz : ∀ m : ℕ, (∑ i ∈ Finset.range m, {x | q x = 0}.indicator (1 : X → ℝ) (ω i)) / m = 0 := by
      intro m
      rw [Finset.sum_eq_zero, zero_div]
      intro i _
      exact Set.indicator_of_notMem (by simpa using hne i) _
    simp only [hz] at h1
    have := tendsto_nhds_unique h1 tendsto_const_nhds
    rw [integral_indicator_one hms] at this
    have h4 : (law μ p).real {x | q x = 0} ≠ 0 := by
      rw [measureReal_def]
      exact (ENNReal.toReal_pos hpos (measure_ne_top _ _)).ne'
    exact h4 this
  obtain ⟨i, hi⟩ := hex
  refine ⟨i + 1, fun n hn => ?_⟩
  have hr : klRun p q (first ω n) 0 = .inf := by
    apply klRun_inf
    · intro x hx
      obtain ⟨j, _, rfl⟩ := List.mem_map.1 hx
      exact h3 j
    · exact ⟨ω i, List.mem_map.2 ⟨i, List.mem_range.2 (by omega), rfl⟩, hi⟩
  rw [klDraws, hr]
  rfl

/-- **The limit is a divergence**: never negative, for densities that integrate to one. -/
theorem C173_kl_nonneg (μ : Measure X) (p q : X → ℝ) (h0 : ∀ x, 0 ≤ p x) (h0q : ∀ x, 0 ≤ q x) (hip : Integrable p μ) (hiq : Integrable q μ) (h1 : ∫ x, p x ∂μ = 1) (h1q : ∫ x, q x ∂μ = 1)
    (hpos : ∀ x, 0 < p x → 0 < q x) (hint : Integrable (fun x => p x * log (p x / q x)) μ) : 0 ≤ ∫ x, p x * log (p x / q x) ∂μ := by
  have h : ∫ x, (p x - q x) ∂μ ≤ ∫ x, p x * log (p x / q x) ∂μ := by
    apply integral_mono (hip.sub hiq) hint
    intro x
    change p x - q x ≤ p x * log (p x / q x)
    rcases (h0 x).lt_or_eq with hx | hx
    · have hqx := hpos x hx
      have := Real.log_le_sub_one_of_pos (div_pos hqx hx)
      have e : log (p x / q x) = -log (q x / p x) := by rw [← log_inv, inv_div]
      rw [e]
      have h3 : p x * (q x / p x - 1) = q x - p x := by field_simp
      nlinarith [mul_le_mul_of_nonneg_left this hx.le]
    · rw [← hx]
      have := h0q x
      simp only [zero_mul]
      linarith
  rw [integral_sub hip hiq, h1, h1q] at h
  linarith

end law

/-- The conditions of the last theorems are met: two weighings of two points. -/
example : (∀ x : Bool, 0 ≤ (if x then (1 : ℝ) / 4 else 3 / 4)) ∧ ∫ x, (if x then (1 : ℝ) / 4 else 3 / 4) ∂(Measure.count : Measure Bool) = 1 ∧
    IsProbabilityMeasure (law (Measure.count : Measure Bool) fun x => if x then (1 : ℝ) / 4 else 3 / 4) ∧ ∀ f : Bool → ℝ, Measurable f ∧ Integrable f (law (Measure.count : Measure Bool) fun x => if x then (1 : ℝ) / 4 else 3 / 4) := by
  have hp : IsProbabilityMeasure (law (Measure.count : Measure Bool) fun x => if x then (1 : ℝ) / 4 else 3 / 4) := by
    refine ⟨?_⟩
    rw [law, withDensity_apply _ MeasurableSet.univ, Measure.restrict_univ, lintegral_count, tsum_fintype]
    simp only [Fintype.sum_bool, if_true, Bool.false_eq_true, if_false]
    rw [← ENNReal.ofReal_add (by norm_num) (by norm_num)]
    norm_num
  refine ⟨fun x => by split_ifs <;> norm_num, ?_, hp, fun f => ⟨measurable_of_finite f, Integrable.of_finite⟩⟩
  rw [integral_fintype Integrable.of_finite]
  simp
  norm_num

end Apop.Entropy
