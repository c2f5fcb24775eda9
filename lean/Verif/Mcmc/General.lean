import Verif.Mcmc.Balance
import Mathlib.MeasureTheory.Measure.Prod
import Mathlib.Probability.Distributions.Gaussian.Real
import Mathlib.MeasureTheory.Constructions.Pi
import Mathlib.MeasureTheory.Integral.Pi

/-! # C72 for any space of parameters, and block by block

The chain's step as a transition on any measurable space of parameters, with the proposal having a density `q` (the default: Normal around the present state). -/

namespace Apop.Mcmc
open Real MeasureTheory ENNReal

section General
variable {S : Type*} [MeasurableSpace S]

/-- The chance of acceptance as an extended nonnegative real. -/
noncomputable def acc (ll : S → ℝ) (x y : S) : ℝ≥0∞ := ENNReal.ofReal (acceptProb (ll x) (ll y))

/-- From `x`: the chance that the next state lies in `A`. A proposal is made by the density `q x`; if it is not accepted the state stays (apop_mcmc.m4.c:104-138). -/
noncomputable def trans (μ : Measure S) (ll : S → ℝ) (q : S → S → ℝ≥0∞) (x : S) (A : Set S) : ℝ≥0∞ :=
  (∫⁻ y in A, q x y * acc ll x y ∂μ) + A.indicator 1 x * ∫⁻ y, q x y * (1 - acc ll x y) ∂μ

theorem acc_eq (ll : S → ℝ) (x y : S) : acc ll x y = ENNReal.ofReal (min 1 (exp (ll y) / exp (ll x))) := by
  rw [acc, C72_accept]

attribute [irreducible] acc

theorem acc_le (ll : S → ℝ) (x y : S) : acc ll x y ≤ 1 := by
  rw [acc_eq]
  exact ENNReal.ofReal_le_one.2 (min_le_left _ _)

theorem acc_balance (ll : S → ℝ) (x y : S) : ENNReal.ofReal (exp (ll x)) * acc ll x y = ENNReal.ofReal (exp (ll y)) * acc ll y x := by
  rw [acc_eq, acc_eq, ← ENNReal.ofReal_mul (exp_pos _).le, ← ENNReal.ofReal_mul (exp_pos _).le]
  congr 1
  rw [mul_min_of_nonneg _ _ (exp_pos _).le, mul_min_of_nonneg _ _ (exp_pos _).le, mul_one, mul_one, mul_div_cancel₀ _ (exp_pos _).ne',
    mul_div_cancel₀ _ (exp_pos _).ne', min_comm]

theorem measurable_acc {ll : S → ℝ} (hll : Measurable ll) : Measurable fun p : S × S => acc ll p.1 p.2 := by
  simp only [acc_eq]
  have h1 : Measurable fun p : S × S => exp (ll p.1) := (hll.comp measurable_fst).exp
  have h2 : Measurable fun p : S × S => exp (ll p.2) := (hll.comp measurable_snd).exp
  exact (measurable_const.min (h2.div h1)).ennreal_ofReal

variable (μ : Measure S) [SFinite μ]

/-- **C72 (a probability).** From every state the chances of the next state are a probability: everything together has chance one. -/
theorem C72_general_total (ll : S → ℝ) (hll : Measurable ll) (q : S → S → ℝ≥0∞) (hq : Measurable fun p : S × S => q p.1 p.2) (h1 : ∀ x, ∫⁻ y, q x y ∂μ = 1) (x : S) :
    trans μ ll q x Set.univ = 1 := by
  unfold trans
  have hqx : Measurable (q x) := hq.comp measurable_prodMk_left
  have hax : Measurable fun y => acc ll x y := (measurable_acc hll).comp measurable_prodMk_left
  have hm : Measurable fun y => q x y * acc ll x y := hqx.mul hax
  simp only [Measure.restrict_univ, Set.indicator_univ, Pi.one_apply, one_mul]
  rw [← lintegral_add_left hm]
  refine Eq.trans ?_ (h1 x)
  apply lintegral_congr
  intro y
  rw [← mul_add, add_tsub_cancel_of_le (acc_le ll x y), mul_one]

/-- **C72 (stationary, general).** On any space of parameters: with proposals as likely there as back, one step of the chain leaves the distribution with density exp(log likelihood) as it is. -/
theorem C72_general_stationary (ll : S → ℝ) (hll : Measurable ll) (q : S → S → ℝ≥0∞) (hq : Measurable fun p : S × S => q p.1 p.2) (h1 : ∀ x, ∫⁻ y, q x y ∂μ = 1)
    (hsym : ∀ x y, q x y = q y x) (A : Set S) (hA : MeasurableSet A) :
    ∫⁻ x, ENNReal.ofReal (exp (ll x)) * trans μ ll q x A ∂μ = ∫⁻ x in A, ENNReal.ofReal (exp (ll x)) ∂μ := by
  have hacc := measurable_acc hll
  have hqx : ∀ x, Measurable (q x) := fun x => hq.comp measurable_prodMk_left
  have hax : ∀ x, Measurable fun y => acc ll x y := fun x => hacc.comp measurable_prodMk_left
  have hqa : ∀ x, Measurable fun y => q x y * acc ll x y := fun x => (hqx x).mul (hax x)
  have he : Measurable fun x => ENNReal.ofReal (exp (ll x)) := hll.exp.ennreal_ofReal
  have hf : Measurable fun p : S × S => ENNReal.ofReal (exp (ll p.1)) * (q p.1 p.2 * acc ll p.1 p.2) :=
    (he.comp measurable_fst).mul (hq.mul hacc)
  have hstay : Measurable fun x => ∫⁻ y, q x y * (1 - acc ll x y) ∂μ := Measurable.lintegral_prod_right' (f := fun p : S × S => q p.1 p.2 * (1 - acc ll p.1 p.2)) (hq.mul (measurable_const.sub hacc))
  have hgo : Measurable fun x => ∫⁻ y in A, q x y * acc ll x y ∂μ := Measurable.lintegral_prod_right' (f := fun p : S × S => q p.1 p.2 * acc ll p.1 p.2) (hq.mul hacc)
  unfold trans
  simp only [mul_add]
  have hgo2 : Measurable fun x => ENNReal.ofReal (exp (ll x)) * ∫⁻ y in A, q x y * acc ll x y ∂μ := he.mul hgo
  rw [lintegral_add_left hgo2]
  -- moving
  have e1 : ∫⁻ x, ENNReal.ofReal (exp (ll x)) * ∫⁻ y in A, q x y * acc ll x y ∂μ ∂μ = ∫⁻ y in A, ENNReal.ofReal (exp (ll y)) * ∫⁻ x, q y x * acc ll y x ∂μ ∂μ := by
    have h2 : ∀ x, ENNReal.ofReal (exp (ll x)) * ∫⁻ y in A, q x y * acc ll x y ∂μ = ∫⁻ y in A, ENNReal.ofReal (exp (ll x)) * (q x y * acc ll x y) ∂μ := by
      intro x
      rw [lintegral_const_mul _ (hqa x)]
    simp only [h2]
    rw [lintegral_lintegral_swap hf.aemeasurable]
    apply lintegral_congr
    intro y
    rw [← lintegral_const_mul _ (hqa y)]
    apply lintegral_congr
    intro x
    calc ENNReal.ofReal (exp (ll x)) * (q x y * acc ll x y) = q x y * (ENNReal.ofReal (exp (ll x)) * acc ll x y) := by ring
      _ = q y x * (ENNReal.ofReal (exp (ll y)) * acc ll y x) := by rw [acc_balance, hsym]
      _ = ENNReal.ofReal (exp (ll y)) * (q y x * acc ll y x) := by ring
  have e2 : ∫⁻ x, ENNReal.ofReal (exp (ll x)) * (A.indicator 1 x * ∫⁻ y, q x y * (1 - acc ll x y) ∂μ) ∂μ =
      ∫⁻ x in A, ENNReal.ofReal (exp (ll x)) * ∫⁻ y, q x y * (1 - acc ll x y) ∂μ ∂μ := by
    rw [← lintegral_indicator hA]
    apply lintegral_congr
    intro x
    by_cases hx : x ∈ A <;> simp [hx]
  have hgo' : Measurable fun x => ∫⁻ y, q x y * acc ll x y ∂μ := Measurable.lintegral_prod_right' (f := fun p : S × S => q p.1 p.2 * acc ll p.1 p.2) (hq.mul hacc)
  have hgo3 : Measurable fun x => ENNReal.ofReal (exp (ll x)) * ∫⁻ y, q x y * acc ll x y ∂μ := he.mul hgo'
  rw [e1, e2, ← lintegral_add_left hgo3]
  apply lintegral_congr
  intro x
  rw [← mul_add, ← lintegral_add_left (hqa x)]
  have : ∫⁻ y, (q x y * acc ll x y + q x y * (1 - acc ll x y)) ∂μ = 1 := by
    refine Eq.trans ?_ (h1 x)
    apply lintegral_congr
    intro y
    rw [← mul_add, add_tsub_cancel_of_le (acc_le ll x y), mul_one]
  rw [this, mul_one]

end General

section Blocks
variable {X Y : Type*} [MeasurableSpace X] [MeasurableSpace Y] (μ : Measure X) [SFinite μ] (ν : Measure Y) [SFinite ν]

/-- One step that proposes only the block `X`, the other parameters `Y` staying as they are. -/
noncomputable def blockTrans (ll : X × Y → ℝ) (q : X → X → ℝ≥0∞) (p : X × Y) (A : Set (X × Y)) : ℝ≥0∞ :=
  trans μ (fun x => ll (x, p.2)) q p.1 {x | (x, p.2) ∈ A}

theorem measurable_blockTrans (ll : X × Y → ℝ) (hll : Measurable ll) (q : X → X → ℝ≥0∞) (hq : Measurable fun p : X × X => q p.1 p.2) (A : Set (X × Y)) (hA : MeasurableSet A) :
    Measurable fun p : X × Y => blockTrans μ ll q p A := by
  have hacc : Measurable fun r : (X × Y) × X => acc (fun x => ll (x, r.1.2)) r.1.1 r.2 := by
    simp only [acc_eq]
    have h1 : Measurable fun r : (X × Y) × X => exp (ll (r.1.1, r.1.2)) := (hll.comp ((measurable_fst.comp measurable_fst).prodMk (measurable_snd.comp measurable_fst))).exp
    have h2 : Measurable fun r : (X × Y) × X => exp (ll (r.2, r.1.2)) := (hll.comp (measurable_snd.prodMk (measurable_snd.comp measurable_fst))).exp
    exact (measurable_const.min (h2.div h1)).ennreal_ofReal
  have hq' : Measurable fun r : (X × Y) × X => q r.1.1 r.2 := hq.comp ((measurable_fst.comp measurable_fst).prodMk measurable_snd)
  have hset : MeasurableSet {r : (X × Y) × X | (r.2, r.1.2) ∈ A} := (measurable_snd.prodMk (measurable_snd.comp measurable_fst)) hA
  have hgo : Measurable fun p : X × Y => ∫⁻ y, Set.indicator {r : (X × Y) × X | (r.2, r.1.2) ∈ A} (fun r => q r.1.1 r.2 * acc (fun x => ll (x, r.1.2)) r.1.1 r.2) (p, y) ∂μ :=
    Measurable.lintegral_prod_right' ((hq'.mul hacc).indicator hset)
  have hstay : Measurable fun p : X × Y => ∫⁻ y, q p.1 y * (1 - acc (fun x => ll (x, p.2)) p.1 y) ∂μ :=
    Measurable.lintegral_prod_right' (f := fun r : (X × Y) × X => q r.1.1 r.2 * (1 - acc (fun x => ll (x, r.1.2)) r.1.1 r.2)) (hq'.mul (measurable_const.sub hacc))
  have e : (fun p : X × Y => blockTrans μ ll q p A) = fun p => (∫⁻ y, Set.indicator {r : (X × Y) × X | (r.2, r.1.2) ∈ A} (fun r => q r.1.1 r.2 * acc (fun x => ll (x, r.1.2)) r.1.1 r.2) (p, y) ∂μ) +
      A.indicator 1 p * ∫⁻ y, q p.1 y * (1 - acc (fun x => ll (x, p.2)) p.1 y) ∂μ := by
    ext p
    have hA' : MeasurableSet {x | (x, p.2) ∈ A} := measurable_prodMk_right hA
    unfold blockTrans trans
    rw [← lintegral_indicator hA']
    rfl
  rw [e]
  exact hgo.add ((measurable_one.indicator hA).mul hstay)

/-- **C72 (blocks).** A step in one block, whatever the blocks, leaves the joint distribution with density exp(log likelihood) as it is. -/
theorem C72_block_stationary (ll : X × Y → ℝ) (hll : Measurable ll) (q : X → X → ℝ≥0∞) (hq : Measurable fun p : X × X => q p.1 p.2) (h1 : ∀ x, ∫⁻ y, q x y ∂μ = 1)
    (hsym : ∀ x y, q x y = q y x) (A : Set (X × Y)) (hA : MeasurableSet A) :
    ∫⁻ p, ENNReal.ofReal (exp (ll p)) * blockTrans μ ll q p A ∂(μ.prod ν) = ∫⁻ p in A, ENNReal.ofReal (exp (ll p)) ∂(μ.prod ν) := by
  have he : Measurable fun p : X × Y => ENNReal.ofReal (exp (ll p)) := hll.exp.ennreal_ofReal
  have hm := measurable_blockTrans μ ll hll q hq A hA
  have hmm : Measurable fun p : X × Y => ENNReal.ofReal (exp (ll p)) * blockTrans μ ll q p A := he.mul hm
  rw [lintegral_prod_symm _ hmm.aemeasurable, ← lintegral_indicator hA, lintegral_prod_symm _ (he.indicator hA).aemeasurable]
  apply lintegral_congr
  intro y
  have hA' : MeasurableSet {x | (x, y) ∈ A} := measurable_prodMk_right hA
  have := C72_general_stationary μ (fun x => ll (x, y)) (hll.comp measurable_prodMk_right) q hq h1 hsym {x | (x, y) ∈ A} hA'
  unfold blockTrans
  simp only
  rw [this, ← lintegral_indicator hA']
  rfl

end Blocks

section Normal

/-- The default proposal of a block of `n` parameters: independent Normals around the present values, all with variance `v` (apop_mcmc.m4.c:66-74; C167 shows that the covariance keeps this form). -/
noncomputable def normalProposal (n : ℕ) (v : NNReal) (x y : Fin n → ℝ) : ℝ≥0∞ := ∏ i, ProbabilityTheory.gaussianPDF (x i) v (y i)

/-- **C72 (default proposals).** The default proposals are as likely there as back, and are a probability density: so the theorems apply to them. -/
theorem C72_normal (n : ℕ) (v : NNReal) (hv : v ≠ 0) :
    (∀ x y, normalProposal n v x y = normalProposal n v y x) ∧ (∀ x, ∫⁻ y, normalProposal n v x y = 1) ∧
      Measurable fun p : (Fin n → ℝ) × (Fin n → ℝ) => normalProposal n v p.1 p.2 := by
  refine ⟨fun x y => ?_, fun x => ?_, ?_⟩
  · unfold normalProposal
    apply Finset.prod_congr rfl
    intro i _
    unfold ProbabilityTheory.gaussianPDF ProbabilityTheory.gaussianPDFReal
    rw [show (y i - x i) ^ 2 = (x i - y i) ^ 2 by ring]
  · unfold normalProposal
    have e : ∀ y : Fin n → ℝ, ∏ i, ProbabilityTheory.gaussianPDF (x i) v (y i) = ENNReal.ofReal (∏ i, ProbabilityTheory.gaussianPDFReal (x i) v (y i)) := by
      intro y
      rw [ENNReal.ofReal_prod_of_nonneg fun i _ => ProbabilityTheory.gaussianPDFReal_nonneg _ _ _]
      rfl
    have hint : Integrable fun y : Fin n → ℝ => ∏ i, ProbabilityTheory.gaussianPDFReal (x i) v (y i) :=
      Integrable.fintype_prod fun i => ProbabilityTheory.integrable_gaussianPDFReal _ _
    simp only [e]
    rw [← ofReal_integral_eq_lintegral_ofReal hint (ae_of_all _ fun y => Finset.prod_nonneg fun i _ => ProbabilityTheory.gaussianPDFReal_nonneg _ _ _),
      integral_fintype_prod_volume_eq_prod]
    simp [ProbabilityTheory.integral_gaussianPDFReal_eq_one _ hv]
  · unfold normalProposal
    apply Finset.measurable_fun_prod
    intro i _
    unfold ProbabilityTheory.gaussianPDF ProbabilityTheory.gaussianPDFReal
    fun_prop

/-- **The default chain has the likelihood as its stationary distribution**: Normal proposals of any variance, any number of parameters. -/
theorem C72_normal_stationary (n : ℕ) (v : NNReal) (hv : v ≠ 0) (ll : (Fin n → ℝ) → ℝ) (hll : Measurable ll) (A : Set (Fin n → ℝ)) (hA : MeasurableSet A) :
    ∫⁻ x, ENNReal.ofReal (exp (ll x)) * trans volume ll (normalProposal n v) x A = ∫⁻ x in A, ENNReal.ofReal (exp (ll x)) := by
  obtain ⟨h1, h2, h3⟩ := C72_normal n v hv
  exact C72_general_stationary volume ll hll _ h3 h2 h1 A hA

/-- A case: a log likelihood of two parameters, and a positive variance. -/
example : (Measurable fun x : Fin 2 → ℝ => -(x 0) ^ 2 - |x 1|) ∧ (1 : NNReal) ≠ 0 := ⟨by fun_prop, one_ne_zero⟩

end Normal

end Apop.Mcmc
