import Verif.Mcmc.General
import Verif.Rng.Reject

/-! # C168: what the chain samples when the model has a constraint (apop_mcmc.m4.c:105-138)

A proposal that fails the constraint (or has no finite log likelihood) is thrown away and another is made from the same state. `C` is the set of parameters that are let through. -/

namespace Apop.Mcmc
open Real MeasureTheory ENNReal

section General
variable {S : Type*} [MeasurableSpace S]

/-- The chance that a proposal from `x` is let through. -/
noncomputable def passes (μ : Measure S) (q : S → S → ℝ≥0∞) (C : Set S) (x : S) : ℝ≥0∞ := ∫⁻ y in C, q x y ∂μ

/-- The loop at `newdraw`, apop_mcmc.m4.c:106-121, on a stream of proposals: the first that is let through. -/
noncomputable def firstAllowed (C : Set S) (ω : ℕ → S) : Option S :=
  open Classical in Rng.firstSome (fun y => if y ∈ C then some y else none) ω

/-- One step with the constraint: from `x` the chance that the next state lies in `A`; the first proposal let through has the density `q x y / passes x` on `C` (`C168_retry`). -/
noncomputable def ctrans (μ : Measure S) (ll : S → ℝ) (q : S → S → ℝ≥0∞) (C : Set S) (x : S) (A : Set S) : ℝ≥0∞ :=
  trans (μ.restrict C) ll (fun x y => q x y / passes μ q C x) x A

/-- **The retried proposal** has the law of a proposal given that it is let through, and the loop ends with probability one if there is any chance of it. -/
theorem C168_retry (Q : Measure S) [IsProbabilityMeasure Q] (C : Set S) (hC : MeasurableSet C) :
    (∀ A, MeasurableSet A → Measure.infinitePi (fun _ : ℕ => Q) {ω | ∃ y ∈ A, firstAllowed C ω = some y} = Q (A ∩ C) / Q C) ∧
      (Q C ≠ 0 → Measure.infinitePi (fun _ : ℕ => Q) {ω | firstAllowed C ω = none} = 0) := by
  classical
  constructor
  · intro A hA
    let step : S → Option Bool := fun y => if y ∈ C then some (decide (y ∈ A)) else none
    have e : {ω : ℕ → S | ∃ y ∈ A, firstAllowed C ω = some y} = {ω | Rng.firstSome step ω = some true} := by
      ext ω
      simp only [Set.mem_ofPred_eq, firstAllowed, Rng.firstSome_eq, step]
      constructor
      · rintro ⟨y, hy, n, h1, h2⟩
        refine ⟨n, fun i hi => ?_, ?_⟩
        · have := h1 i hi
          by_cases hc : ω i ∈ C <;> simp_all
        · by_cases hc : ω n ∈ C <;> simp_all
      · rintro ⟨n, h1, h2⟩
        by_cases hc : ω n ∈ C
        · simp only [hc, if_true, Option.some.injEq, decide_eq_true_eq] at h2
          refine ⟨ω n, h2, n, fun i hi => ?_, by simp [hc]⟩
          have := h1 i hi
          by_cases hc : ω i ∈ C <;> simp_all
        · simp [hc] at h2
    have e1 : {x | step x = some true} = A ∩ C := by
      ext x
      by_cases hc : x ∈ C <;> simp [step, hc]
    have e2 : {x | step x = none} = Cᶜ := by
      ext x
      by_cases hc : x ∈ C <;> simp [step, hc]
    have e3 : {x | step x ≠ none} = C := by
      ext x
      by_cases hc : x ∈ C <;> simp [step, hc]
    rw [e, Rng.firstSome_law Q step true (by rw [e1]; exact hA.inter hC) (by rw [e2]; exact hC.compl), e1, e3]
  · intro h
    have e2 : {x | (if x ∈ C then some x else none) = none} = Cᶜ := by
      ext x
      by_cases hc : x ∈ C <;> simp [hc]
    have e3 : {x | (if x ∈ C then some x else none) ≠ none} = C := by
      ext x
      by_cases hc : x ∈ C <;> simp [hc]
    unfold firstAllowed
    exact Rng.firstSome_ends Q _ (by rw [e2]; exact hC.compl) (by rw [e3]; exact h)

theorem measurable_passes (μ : Measure S) [SFinite μ] (q : S → S → ℝ≥0∞) (hq : Measurable fun p : S × S => q p.1 p.2) (C : Set S) : Measurable (passes μ q C) :=
  Measurable.lintegral_prod_right' (f := fun p : S × S => q p.1 p.2) hq

theorem passes_le (μ : Measure S) (q : S → S → ℝ≥0∞) (h1 : ∀ x, ∫⁻ y, q x y ∂μ = 1) (C : Set S) (x : S) : passes μ q C x ≤ 1 := by
  rw [← h1 x]
  exact setLIntegral_le_lintegral _ _

/-- A transition by proposals of density `q` that is in balance with the density `w` leaves `w` as it is. -/
theorem trans_stationary (ν : Measure S) [SFinite ν] (ll : S → ℝ) (hll : Measurable ll) (q : S → S → ℝ≥0∞) (hq : Measurable fun p : S × S => q p.1 p.2) (h1 : ∀ᵐ x ∂ν, ∫⁻ y, q x y ∂ν = 1)
    (w : S → ℝ≥0∞) (he : Measurable w) (hbal : ∀ᵐ y ∂ν, ∀ᵐ x ∂ν, w x * (q x y * acc ll x y) = w y * (q y x * acc ll y x)) (A : Set S) (hA : MeasurableSet A) :
    ∫⁻ x, w x * trans ν ll q x A ∂ν = ∫⁻ x in A, w x ∂ν := by
  have hacc := measurable_acc hll
  have hqx : ∀ x, Measurable (q x) := fun x => hq.comp measurable_prodMk_left
  have hax : ∀ x, Measurable fun y => acc ll x y := fun x => hacc.comp measurable_prodMk_left
  have hqa : ∀ x, Measurable fun y => q x y * acc ll x y := fun x => (hqx x).mul (hax x)
  have hf : Measurable fun p : S × S => w p.1 * (q p.1 p.2 * acc ll p.1 p.2) := (he.comp measurable_fst).mul (hq.mul hacc)
  have hgo : Measurable fun x => ∫⁻ y in A, q x y * acc ll x y ∂ν := Measurable.lintegral_prod_right' (f := fun p : S × S => q p.1 p.2 * acc ll p.1 p.2) (hq.mul hacc)
  unfold trans
  simp only [mul_add]
  have hgo2 : Measurable fun x => w x * ∫⁻ y in A, q x y * acc ll x y ∂ν := he.mul hgo
  rw [lintegral_add_left hgo2]
  have e1 : ∫⁻ x, w x * ∫⁻ y in A, q x y * acc ll x y ∂ν ∂ν = ∫⁻ y in A, w y * ∫⁻ x, q y x * acc ll y x ∂ν ∂ν := by
    have h2 : ∀ x, w x * ∫⁻ y in A, q x y * acc ll x y ∂ν = ∫⁻ y in A, w x * (q x y * acc ll x y) ∂ν := by
      intro x
      rw [lintegral_const_mul _ (hqa x)]
    simp only [h2]
    rw [lintegral_lintegral_swap hf.aemeasurable]
    apply lintegral_congr_ae
    filter_upwards [ae_restrict_of_ae hbal] with y hy
    rw [← lintegral_const_mul _ (hqa y)]
    exact lintegral_congr_ae hy
  have e2 : ∫⁻ x, w x * (A.indicator 1 x * ∫⁻ y, q x y * (1 - acc ll x y) ∂ν) ∂ν = ∫⁻ x in A, w x * ∫⁻ y, q x y * (1 - acc ll x y) ∂ν ∂ν := by
    rw [← lintegral_indicator hA]
    apply lintegral_congr
    intro x
    by_cases hx : x ∈ A <;> simp [hx]
  have hgo' : Measurable fun x => ∫⁻ y, q x y * acc ll x y ∂ν := Measurable.lintegral_prod_right' (f := fun p : S × S => q p.1 p.2 * acc ll p.1 p.2) (hq.mul hacc)
  have hgo3 : Measurable fun x => w x * ∫⁻ y, q x y * acc ll x y ∂ν := he.mul hgo'
  rw [e1, e2, ← lintegral_add_left hgo3]
  apply lintegral_congr_ae
  filter_upwards [ae_restrict_of_ae h1] with x hx
  rw [← mul_add, ← lintegral_add_left (hqa x)]
  have : ∫⁻ y, (q x y * acc ll x y + q x y * (1 - acc ll x y)) ∂ν = 1 := by
    refine Eq.trans ?_ hx
    apply lintegral_congr
    intro y
    rw [← mul_add, add_tsub_cancel_of_le (acc_le ll x y), mul_one]
  rw [this, mul_one]

variable (μ : Measure S) [SFinite μ]

/-- The flow density between two allowed states before division by the chance of being let through. -/
theorem flow_symm (ll : S → ℝ) (q : S → S → ℝ≥0∞) (hsym : ∀ x y, q x y = q y x) (x y : S) :
    ENNReal.ofReal (exp (ll x)) * (q x y * acc ll x y) = ENNReal.ofReal (exp (ll y)) * (q y x * acc ll y x) := by
  calc ENNReal.ofReal (exp (ll x)) * (q x y * acc ll x y) = q x y * (ENNReal.ofReal (exp (ll x)) * acc ll x y) := by ring
    _ = q y x * (ENNReal.ofReal (exp (ll y)) * acc ll y x) := by rw [acc_balance, hsym]
    _ = ENNReal.ofReal (exp (ll y)) * (q y x * acc ll y x) := by ring

/-- **What the chain samples under a constraint.** Not exp(log likelihood) on the allowed set, but that times the chance that a proposal from there is let through. -/
theorem C168_stationary (ll : S → ℝ) (hll : Measurable ll) (q : S → S → ℝ≥0∞) (hq : Measurable fun p : S × S => q p.1 p.2) (h1 : ∀ x, ∫⁻ y, q x y ∂μ = 1)
    (hsym : ∀ x y, q x y = q y x) (C : Set S) (hC : MeasurableSet C) (hZ : ∀ x ∈ C, passes μ q C x ≠ 0) (A : Set S) (hA : MeasurableSet A) :
    ∫⁻ x in C, ENNReal.ofReal (exp (ll x)) * passes μ q C x * ctrans μ ll q C x A ∂μ = ∫⁻ x in A ∩ C, ENNReal.ofReal (exp (ll x)) * passes μ q C x ∂μ := by
  have hm := measurable_passes μ q hq C
  have hfin : ∀ x, passes μ q C x ≠ ∞ := fun x => ((passes_le μ q h1 C x).trans_lt one_lt_top).ne
  have hq' : Measurable fun p : S × S => q p.1 p.2 / passes μ q C p.1 := hq.div (hm.comp measurable_fst)
  have hqx : ∀ x, Measurable (q x) := fun x => hq.comp measurable_prodMk_left
  have he : Measurable fun x => ENNReal.ofReal (exp (ll x)) * passes μ q C x := hll.exp.ennreal_ofReal.mul hm
  unfold ctrans
  rw [trans_stationary (μ.restrict C) ll hll (fun x y => q x y / passes μ q C x) hq' ?_ _ he ?_ A hA, Measure.restrict_restrict hA]
  · filter_upwards [ae_restrict_mem hC] with x hx
    have : ∀ y, q x y / passes μ q C x = (passes μ q C x)⁻¹ * q x y := fun y => by rw [div_eq_mul_inv, mul_comm]
    simp only [this]
    rw [lintegral_const_mul _ (hqx x)]
    exact ENNReal.inv_mul_cancel (hZ x hx) (hfin x)
  · filter_upwards [ae_restrict_mem hC] with y hy
    filter_upwards [ae_restrict_mem hC] with x hx
    have h2 : ∀ x ∈ C, ∀ y, ENNReal.ofReal (exp (ll x)) * passes μ q C x * (q x y / passes μ q C x * acc ll x y) = ENNReal.ofReal (exp (ll x)) * (q x y * acc ll x y) := by
      intro x hx y
      have : passes μ q C x * (passes μ q C x)⁻¹ = 1 := ENNReal.mul_inv_cancel (hZ x hx) (hfin x)
      calc _ = ENNReal.ofReal (exp (ll x)) * (passes μ q C x * (passes μ q C x)⁻¹) * (q x y * acc ll x y) := by rw [div_eq_mul_inv]; ring
        _ = _ := by rw [this, mul_one]
    rw [h2 x hx y, h2 y hy x]
    exact flow_symm ll q hsym x y

theorem acc_pos (ll : S → ℝ) (x y : S) : acc ll x y ≠ 0 := by
  rw [acc_eq]
  exact (ENNReal.ofReal_pos.2 (lt_min one_pos (div_pos (exp_pos _) (exp_pos _)))).ne'

/-- **The likelihood is not what is sampled** whenever the chance of being let through is not (almost everywhere) the same: if it is below `t` on a part of the allowed set and not below on another, both of positive measure, exp(log likelihood) on the allowed set is not stationary. -/
theorem C168_biased (ll : S → ℝ) (hll : Measurable ll) (q : S → S → ℝ≥0∞) (hq : Measurable fun p : S × S => q p.1 p.2) (h1 : ∀ x, ∫⁻ y, q x y ∂μ = 1)
    (hsym : ∀ x y, q x y = q y x) (hpos : ∀ x y, q x y ≠ 0) (htop : ∀ x y, q x y ≠ ∞) (C : Set S) (hfinite : ∫⁻ x in C, ENNReal.ofReal (exp (ll x)) ∂μ ≠ ∞)
    (t : ℝ≥0∞) (hlow : μ ({x | passes μ q C x < t} ∩ C) ≠ 0) (hhigh : μ ({x | t ≤ passes μ q C x} ∩ C) ≠ 0) :
    ¬ ∀ A, MeasurableSet A → ∫⁻ x in C, ENNReal.ofReal (exp (ll x)) * ctrans μ ll q C x A ∂μ = ∫⁻ x in A ∩ C, ENNReal.ofReal (exp (ll x)) ∂μ := by
  intro h
  have hm := measurable_passes μ q hq C
  have hCne : μ C ≠ 0 := fun h0 => hlow (measure_mono_null Set.inter_subset_right h0)
  have hZ : ∀ x, passes μ q C x ≠ 0 := by
    intro x hx
    unfold passes at hx
    have hqx : Measurable (q x) := hq.comp measurable_prodMk_left
    rw [lintegral_eq_zero_iff hqx] at hx
    have h2 : ∀ᵐ y ∂μ.restrict C, False := by
      filter_upwards [hx] with y hy
      exact hpos x y hy
    rw [Filter.eventually_false_iff_eq_bot, ae_eq_bot, Measure.restrict_eq_zero] at h2
    exact hCne h2
  have hfin : ∀ x, passes μ q C x ≠ ∞ := fun x => ((passes_le μ q h1 C x).trans_lt one_lt_top).ne
  set A : Set S := {x | passes μ q C x < t} with hAdef
  have hA : MeasurableSet A := measurableSet_lt hm measurable_const
  have hAc : Aᶜ = {x | t ≤ passes μ q C x} := by
    ext x
    simp [hAdef]
  set ν := μ.restrict C with hν
  set w : S → ℝ≥0∞ := fun x => ENNReal.ofReal (exp (ll x)) with hw
  have he : Measurable w := hll.exp.ennreal_ofReal
  set g : S → S → ℝ≥0∞ := fun x y => w x * (q x y * acc ll x y) with hg
  have hacc := measurable_acc hll
  have hgm : Measurable fun p : S × S => g p.1 p.2 := (he.comp measurable_fst).mul (hq.mul hacc)
  have hqa : ∀ x, Measurable fun y => q x y * acc ll x y := fun x => ((hq.comp measurable_prodMk_left).mul (hacc.comp measurable_prodMk_left))
  have hpi : Measurable fun x => (passes μ q C x)⁻¹ := hm.inv
  -- the transition as a sum
  have hq' : Measurable fun p : S × S => q p.1 p.2 / passes μ q C p.1 := hq.div (hm.comp measurable_fst)
  have hone : ∀ x, ∫⁻ y, q x y / passes μ q C x ∂ν = 1 := by
    intro x
    have : ∀ y, q x y / passes μ q C x = (passes μ q C x)⁻¹ * q x y := fun y => by rw [div_eq_mul_inv, mul_comm]
    simp only [this]
    have hqx : Measurable (q x) := hq.comp measurable_prodMk_left
    rw [lintegral_const_mul _ hqx]
    exact ENNReal.inv_mul_cancel (hZ x) (hfin x)
  have htotal : ∀ x, ctrans μ ll q C x A + ctrans μ ll q C x Aᶜ = 1 := by
    intro x
    refine Eq.trans ?_ (C72_general_total ν ll hll (fun x y => q x y / passes μ q C x) hq' hone x)
    unfold ctrans trans
    have hi : A.indicator (1 : S → ℝ≥0∞) x + Aᶜ.indicator 1 x = Set.univ.indicator 1 x := by
      by_cases hx : x ∈ A <;> simp [hx]
    have hs := lintegral_add_compl (μ := ν) (fun y => q x y / passes μ q C x * acc ll x y) hA
    rw [Measure.restrict_univ, ← hi, ← hν, add_mul]
    refine (add_add_add_comm _ _ _ _).trans ?_
    exact congrArg (· + _) hs
  have hout : ∀ B : Set S, ∀ x, x ∉ B → w x * ctrans μ ll q C x B = ∫⁻ y in B, g x y * (passes μ q C x)⁻¹ ∂ν := by
    intro B x hx
    unfold ctrans trans
    simp only [hx, not_false_eq_true, Set.indicator_of_notMem, zero_mul, add_zero]
    have e : ∀ y, q x y / passes μ q C x * acc ll x y = (passes μ q C x)⁻¹ * (q x y * acc ll x y) := fun y => by rw [div_eq_mul_inv]; ring
    have e' : ∀ y, g x y * (passes μ q C x)⁻¹ = (w x * (passes μ q C x)⁻¹) * (q x y * acc ll x y) := fun y => by simp only [hg]; ring
    simp only [e, e']
    rw [lintegral_const_mul _ (hqa x), lintegral_const_mul _ (hqa x), mul_assoc]
  have hcm : ∀ B : Set S, MeasurableSet B → Measurable fun x => ctrans μ ll q C x B := by
    intro B hB
    unfold ctrans trans
    have ha : Measurable fun x => ∫⁻ y in B, q x y / passes μ q C x * acc ll x y ∂ν := Measurable.lintegral_prod_right' (f := fun p : S × S => q p.1 p.2 / passes μ q C p.1 * acc ll p.1 p.2) (hq'.mul hacc)
    have hb : Measurable fun x => ∫⁻ y, q x y / passes μ q C x * (1 - acc ll x y) ∂ν := Measurable.lintegral_prod_right' (f := fun p : S × S => q p.1 p.2 / passes μ q C p.1 * (1 - acc ll p.1 p.2)) (hq'.mul (measurable_const.sub hacc))
    exact ha.add ((measurable_one.indicator hB).mul hb)
  have hA1 := h A hA
  rw [← Measure.restrict_restrict hA, ← lintegral_add_compl _ hA] at hA1
  have hA2 : ∫⁻ x in A, w x ∂ν = ∫⁻ x in A, w x * ctrans μ ll q C x A ∂ν + ∫⁻ x in A, w x * ctrans μ ll q C x Aᶜ ∂ν := by
    have hmm : Measurable fun x => w x * ctrans μ ll q C x A := he.mul (hcm A hA)
    rw [← lintegral_add_left hmm]
    apply lintegral_congr
    intro x
    rw [← mul_add, htotal, mul_one]
  have hwfin : ∫⁻ x in A, w x ∂ν ≠ ∞ := ((setLIntegral_le_lintegral _ _).trans_lt (lt_top_iff_ne_top.2 hfinite)).ne
  have hfinA : ∫⁻ x in A, w x * ctrans μ ll q C x A ∂ν ≠ ∞ := by
    refine ((le_trans le_self_add hA2.symm.le).trans_lt (lt_top_iff_ne_top.2 hwfin)).ne
  have hflow : ∫⁻ x in Aᶜ, w x * ctrans μ ll q C x A ∂ν = ∫⁻ x in A, w x * ctrans μ ll q C x Aᶜ ∂ν := by
    have := hA1.trans hA2
    exact (ENNReal.add_right_inj hfinA).1 this
  have hL : ∫⁻ x in Aᶜ, w x * ctrans μ ll q C x A ∂ν = ∫⁻ x in A, ∫⁻ y in Aᶜ, g x y * (passes μ q C y)⁻¹ ∂ν ∂ν := by
    have e : ∫⁻ x in Aᶜ, w x * ctrans μ ll q C x A ∂ν = ∫⁻ x in Aᶜ, ∫⁻ y in A, g x y * (passes μ q C x)⁻¹ ∂ν ∂ν := by
      apply setLIntegral_congr_fun hA.compl
      intro x hx
      exact hout A x hx
    have hmm : Measurable fun p : S × S => g p.1 p.2 * (passes μ q C p.1)⁻¹ := hgm.mul (hpi.comp measurable_fst)
    rw [e, lintegral_lintegral_swap hmm.aemeasurable]
    apply lintegral_congr
    intro x
    apply lintegral_congr
    intro y
    simp only [hg, hw]
    rw [flow_symm ll q hsym x y]
  have hR : ∫⁻ x in A, w x * ctrans μ ll q C x Aᶜ ∂ν = ∫⁻ x in A, ∫⁻ y in Aᶜ, g x y * (passes μ q C x)⁻¹ ∂ν ∂ν := by
    apply setLIntegral_congr_fun hA
    intro x hx
    exact hout Aᶜ x (by simpa using hx)
  rw [hL, hR] at hflow
  have hmL : Measurable fun p : S × S => g p.1 p.2 * (passes μ q C p.2)⁻¹ := hgm.mul (hpi.comp measurable_snd)
  have hmR : Measurable fun p : S × S => g p.1 p.2 * (passes μ q C p.1)⁻¹ := hgm.mul (hpi.comp measurable_fst)
  have hPL := lintegral_prod (μ := ν.restrict A) (ν := ν.restrict Aᶜ) _ hmL.aemeasurable
  have hPR := lintegral_prod (μ := ν.restrict A) (ν := ν.restrict Aᶜ) _ hmR.aemeasurable
  have hfinL : ∫⁻ p, g p.1 p.2 * (passes μ q C p.2)⁻¹ ∂(ν.restrict A).prod (ν.restrict Aᶜ) ≠ ∞ := by
    rw [hPL]
    simp only
    rw [hflow, ← hR]
    refine ((le_trans le_add_self hA2.symm.le).trans_lt (lt_top_iff_ne_top.2 hwfin)).ne
  have hne : (ν.restrict A).prod (ν.restrict Aᶜ) ≠ 0 := by
    intro h0
    have := congrArg (fun m => m Set.univ) h0
    simp only [← Set.univ_prod_univ, Measure.prod_prod, Measure.coe_zero, Pi.zero_apply, mul_eq_zero, Measure.restrict_apply_univ, hν] at this
    rw [Measure.restrict_apply hA, Measure.restrict_apply hA.compl, hAc] at this
    exact this.elim hlow hhigh
  have hlt := lintegral_strict_mono hne hmR.aemeasurable hfinL (by
    have hp : ∀ᵐ p ∂(ν.restrict A).prod (ν.restrict Aᶜ), p ∈ A ×ˢ Aᶜ := by
      rw [Measure.prod_restrict]
      exact ae_restrict_mem (hA.prod hA.compl)
    filter_upwards [hp] with p hp
    have ha : passes μ q C p.1 < t := hp.1
    have hb : t ≤ passes μ q C p.2 := by
      have := hp.2
      rw [hAc] at this
      exact this
    have hg0 : g p.1 p.2 ≠ 0 := mul_ne_zero (ENNReal.ofReal_pos.2 (exp_pos _)).ne' (mul_ne_zero (hpos _ _) (acc_pos ll _ _))
    have hgt : g p.1 p.2 ≠ ∞ := ENNReal.mul_ne_top ofReal_ne_top (ENNReal.mul_ne_top (htop _ _) ((acc_le ll _ _).trans_lt one_lt_top).ne)
    exact ENNReal.mul_lt_mul_right hg0 hgt (ENNReal.inv_lt_inv.2 (ha.trans_le hb)))
  rw [hPL, hPR] at hlt
  exact hlt.ne hflow

end General

section Normal
open ProbabilityTheory

/-- The chance that a Normal proposal from `x` is positive. -/
theorem passes_half (v : NNReal) (hv : v ≠ 0) (x : ℝ) : passes volume (fun x y => gaussianPDF x v y) (Set.Ioi 0) x = gaussianReal 0 v (Set.Ioi (-x)) := by
  have h := gaussianReal_map_add_const (μ := 0) (v := v) x
  rw [zero_add] at h
  unfold passes
  rw [← gaussianReal_apply x hv, ← h, Measure.map_apply (by fun_prop) measurableSet_Ioi]
  congr 1
  ext y
  simp only [Set.mem_preimage, Set.mem_Ioi]
  constructor <;> intro h <;> linarith

/-- It grows with `x`. -/
theorem passes_strictMono (v : NNReal) (hv : v ≠ 0) : StrictMono (passes volume (fun x y => gaussianPDF x v y) (Set.Ioi (0 : ℝ))) := by
  intro x x' hx
  rw [passes_half v hv, passes_half v hv]
  have e : Set.Ioi (-x') = Set.Ioc (-x') (-x) ∪ Set.Ioi (-x) := (Set.Ioc_union_Ioi_eq_Ioi (by linarith)).symm
  have hd : Disjoint (Set.Ioc (-x') (-x)) (Set.Ioi (-x)) := by
    rw [Set.disjoint_left]
    intro y h1 h2
    exact absurd h1.2 (not_le.2 h2)
  rw [e, measure_union hd measurableSet_Ioi]
  have hp : gaussianReal 0 v (Set.Ioc (-x') (-x)) ≠ 0 := by
    intro h0
    have := gaussianReal_absolutelyContinuous' 0 hv h0
    rw [Real.volume_Ioc, ENNReal.ofReal_eq_zero] at this
    linarith
  rw [add_comm]
  exact ENNReal.lt_add_right (measure_ne_top _ _) hp

/-- **The default chain with one parameter that must be positive** (a variance, a rate): whatever the likelihood and the width of the proposals, the likelihood on the positive numbers is not the chain's stationary distribution; that is the likelihood times the chance of a proposal above zero, which grows with the parameter. -/
theorem C168_positive_refuted (v : NNReal) (hv : v ≠ 0) (ll : ℝ → ℝ) (hll : Measurable ll) (hfinite : ∫⁻ x in Set.Ioi (0 : ℝ), ENNReal.ofReal (exp (ll x)) ≠ ∞) :
    (¬ ∀ A, MeasurableSet A → ∫⁻ x in Set.Ioi (0 : ℝ), ENNReal.ofReal (exp (ll x)) * ctrans volume ll (fun x y => gaussianPDF x v y) (Set.Ioi 0) x A = ∫⁻ x in A ∩ Set.Ioi 0, ENNReal.ofReal (exp (ll x))) ∧
      (∀ A, MeasurableSet A → ∫⁻ x in Set.Ioi (0 : ℝ), ENNReal.ofReal (exp (ll x)) * gaussianReal 0 v (Set.Ioi (-x)) * ctrans volume ll (fun x y => gaussianPDF x v y) (Set.Ioi 0) x A =
        ∫⁻ x in A ∩ Set.Ioi 0, ENNReal.ofReal (exp (ll x)) * gaussianReal 0 v (Set.Ioi (-x))) ∧
      ∀ x x' : ℝ, x < x' → gaussianReal 0 v (Set.Ioi (-x)) < gaussianReal 0 v (Set.Ioi (-x')) := by
  have hq : Measurable fun p : ℝ × ℝ => gaussianPDF p.1 v p.2 := by
    unfold gaussianPDF gaussianPDFReal
    fun_prop
  have hsym : ∀ x y : ℝ, gaussianPDF x v y = gaussianPDF y v x := by
    intro x y
    unfold gaussianPDF gaussianPDFReal
    rw [show (y - x) ^ 2 = (x - y) ^ 2 by ring]
  have hone : ∀ x : ℝ, ∫⁻ y, gaussianPDF x v y = 1 := fun x => lintegral_gaussianPDF_eq_one x hv
  have hmono := passes_strictMono v hv
  have hpass := passes_half v hv
  refine ⟨?_, fun A hA => ?_, fun x x' h => ?_⟩
  · refine C168_biased volume ll hll _ hq hone hsym (fun x y => (gaussianPDF_pos x hv y).ne') (fun x y => gaussianPDF_ne_top) _ hfinite
      (passes volume (fun x y => gaussianPDF x v y) (Set.Ioi (0 : ℝ)) 1) ?_ ?_
    · intro h0
      have : volume (Set.Ioo (0 : ℝ) 1) = 0 := by
        refine measure_mono_null ?_ h0
        intro x hx
        exact ⟨hmono hx.2, hx.1⟩
      rw [Real.volume_Ioo, ENNReal.ofReal_eq_zero] at this
      linarith
    · intro h0
      have : volume (Set.Ioo (1 : ℝ) 2) = 0 := by
        refine measure_mono_null ?_ h0
        intro x hx
        exact ⟨hmono.monotone hx.1.le, show (0 : ℝ) < x by linarith [hx.1]⟩
      rw [Real.volume_Ioo, ENNReal.ofReal_eq_zero] at this
      linarith
  · have := C168_stationary volume ll hll (fun x y => gaussianPDF x v y) hq hone hsym (Set.Ioi 0) measurableSet_Ioi (fun x _ => ?_) A hA
    · simpa only [hpass] using this
    · rw [hpass]
      intro h0
      have := gaussianReal_absolutelyContinuous' 0 hv h0
      simp at this
  · have := hmono h
    rwa [hpass, hpass] at this

/-- The documentation says that values near the constraint will be oversampled (apop_mcmc.m4.c:235). **They are undersampled**: for every `a`, the stationary distribution of `C168_positive_refuted` gives the values up to `a` a smaller share than the likelihood does (the shares are compared by cross multiplication). -/
theorem C168_oversampled_refuted (v : NNReal) (hv : v ≠ 0) (ll : ℝ → ℝ) (hll : Measurable ll) (hfinite : ∫⁻ x in Set.Ioi (0 : ℝ), ENNReal.ofReal (exp (ll x)) ≠ ∞) (a : ℝ) (ha : 0 < a) :
    (∫⁻ x in Set.Ioc 0 a, ENNReal.ofReal (exp (ll x)) * gaussianReal 0 v (Set.Ioi (-x))) * (∫⁻ x in Set.Ioi (0 : ℝ), ENNReal.ofReal (exp (ll x))) <
      (∫⁻ x in Set.Ioc 0 a, ENNReal.ofReal (exp (ll x))) * ∫⁻ x in Set.Ioi (0 : ℝ), ENNReal.ofReal (exp (ll x)) * gaussianReal 0 v (Set.Ioi (-x)) := by
  obtain ⟨-, -, hmono⟩ := C168_positive_refuted v hv ll hll hfinite
  set Z : ℝ → ℝ≥0∞ := fun x => gaussianReal 0 v (Set.Ioi (-x)) with hZ
  have hZm : Measurable Z := by
    have : StrictMono Z := fun x x' h => hmono x x' h
    exact this.monotone.measurable
  set w : ℝ → ℝ≥0∞ := fun x => ENNReal.ofReal (exp (ll x)) with hw
  have hwm : Measurable w := hll.exp.ennreal_ofReal
  have hwz : Measurable fun x => w x * Z x := hwm.mul hZm
  have hsplit : ∀ f : ℝ → ℝ≥0∞, ∫⁻ x in Set.Ioi (0 : ℝ), f x = (∫⁻ x in Set.Ioc 0 a, f x) + ∫⁻ x in Set.Ioi a, f x := by
    intro f
    rw [← Set.Ioc_union_Ioi_eq_Ioi ha.le, lintegral_union measurableSet_Ioi]
    rw [Set.disjoint_left]
    intro y h1 h2
    exact absurd h1.2 (not_le.2 h2)
  have hf := hfinite
  rw [hsplit] at hf
  obtain ⟨hf1, hf2⟩ := ENNReal.add_ne_top.1 hf
  have hZtop : ∀ x, Z x ≠ ∞ := fun x => measure_ne_top _ _
  have hQ2 : Z a * ∫⁻ x in Set.Ioi a, w x ≤ ∫⁻ x in Set.Ioi a, w x * Z x := by
    rw [← lintegral_const_mul _ hwm]
    refine setLIntegral_mono hwz ?_
    intro x hx
    rw [mul_comm]
    gcongr
    exact (hmono a x hx).le
  have hQ1 : ∫⁻ x in Set.Ioc 0 a, w x * Z x < Z a * ∫⁻ x in Set.Ioc 0 a, w x := by
    have hle : ∀ x ∈ Set.Ioc 0 a, w x * Z x ≤ Z a * w x := by
      intro x hx
      rw [mul_comm]
      gcongr
      rcases hx.2.lt_or_eq with h | h
      · exact (hmono x a h).le
      · rw [h]
    have hfin1 : ∫⁻ x in Set.Ioc 0 a, w x * Z x ≠ ∞ := by
      have h3 : ∫⁻ x in Set.Ioc 0 a, w x * Z x ≤ ∫⁻ x in Set.Ioc 0 a, Z a * w x := setLIntegral_mono (measurable_const.mul hwm) hle
      rw [lintegral_const_mul _ hwm] at h3
      exact (h3.trans_lt (lt_top_iff_ne_top.2 (ENNReal.mul_ne_top (hZtop a) hf1))).ne
    rw [← lintegral_const_mul _ hwm]
    refine lintegral_strict_mono_of_ae_le_of_ae_lt_on (measurable_const.mul hwm).aemeasurable hfin1 ?_ (s := Set.Ioo 0 a) ?_ ?_
    · filter_upwards [ae_restrict_mem measurableSet_Ioc] with x hx
      exact hle x hx
    · rw [Measure.restrict_apply measurableSet_Ioo, Set.inter_eq_left.2 Set.Ioo_subset_Ioc_self, Real.volume_Ioo]
      simpa using ha
    · refine ae_of_all _ fun x hx => ?_
      rw [mul_comm]
      exact ENNReal.mul_lt_mul_left (ENNReal.ofReal_pos.2 (exp_pos _)).ne' ofReal_ne_top (hmono x a hx.2)
  have hP2 : ∫⁻ x in Set.Ioi a, w x ≠ 0 := by
    intro h0
    rw [lintegral_eq_zero_iff hwm] at h0
    have h3 : ∀ᵐ y ∂volume.restrict (Set.Ioi a), False := by
      filter_upwards [h0] with y hy
      exact (ENNReal.ofReal_pos.2 (exp_pos _)).ne' hy
    rw [Filter.eventually_false_iff_eq_bot, ae_eq_bot, Measure.restrict_eq_zero] at h3
    simp at h3
  rw [hsplit, hsplit (fun x => w x * Z x), mul_add, mul_add, mul_comm (∫⁻ x in Set.Ioc 0 a, w x * Z x) (∫⁻ x in Set.Ioc 0 a, w x)]
  refine ENNReal.add_lt_add_left ?_ ?_
  · refine ENNReal.mul_ne_top hf1 (hQ1.trans_le le_top).ne
  · calc (∫⁻ x in Set.Ioc 0 a, w x * Z x) * ∫⁻ x in Set.Ioi a, w x < (Z a * ∫⁻ x in Set.Ioc 0 a, w x) * ∫⁻ x in Set.Ioi a, w x :=
          ENNReal.mul_lt_mul_left hP2 hf2 hQ1
      _ = (∫⁻ x in Set.Ioc 0 a, w x) * (Z a * ∫⁻ x in Set.Ioi a, w x) := by ring
      _ ≤ _ := by gcongr

/-- A case: the likelihood of an Exponential. -/
example : (Measurable fun x : ℝ => -x) ∧ ∫⁻ x in Set.Ioi (0 : ℝ), ENNReal.ofReal (exp (-x)) ≠ ∞ := by
  refine ⟨measurable_neg, ?_⟩
  have h := integrableOn_exp_neg_Ioi 0
  exact (h.lintegral_lt_top).ne

end Normal
end Apop.Mcmc
