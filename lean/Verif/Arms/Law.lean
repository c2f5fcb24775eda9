import Verif.Arms.Accept
import Mathlib.MeasureTheory.Measure.Prod
import Mathlib.MeasureTheory.Constructions.BorelSpace.Order
import Mathlib.MeasureTheory.Integral.IntervalIntegral.Basic
import Mathlib.MeasureTheory.Measure.WithDensity
import Mathlib.MeasureTheory.Measure.Lebesgue.Basic

/-! # C155: the law of a round of rejection sampling by inversion -/

namespace Apop.Arms

open Set MeasureTheory

/-- A sampler by inversion of g over [xl, xr]. -/
structure Inverts (xl xr : ℝ) (g Y : ℝ → ℝ) : Prop where
  lt : xl < xr
  meas : Measurable g
  pos : ∀ x ∈ Ioc xl xr, 0 < g x
  int : ∀ t ∈ Icc xl xr, IntervalIntegrable g volume xl t
  mem : ∀ v, Y v ∈ Icc xl xr
  inv : ∀ v ∈ Ico (0 : ℝ) 1, ∫ t in xl..Y v, g t = v * ∫ t in xl..xr, g t
  out : ∀ v, v ∉ Ico (0 : ℝ) 1 → Y v = xl

variable {xl xr : ℝ} {g Y : ℝ → ℝ}

theorem Inverts.strict (h : Inverts xl xr g Y) {s t : ℝ} (hs : xl ≤ s) (hst : s < t) (ht : t ≤ xr) : ∫ x in xl..s, g x < ∫ x in xl..t, g x := by
  have h1 := h.int s ⟨hs, by linarith⟩
  have h2 := h.int t ⟨by linarith, ht⟩
  have h3 : IntervalIntegrable g volume s t := h1.symm.trans h2
  rw [← intervalIntegral.integral_add_adjacent_intervals h1 h3]
  have := intervalIntegral.intervalIntegral_pos_of_pos_on h3 (fun x hx => h.pos x ⟨by linarith [hx.1], by linarith [hx.2]⟩) hst
  linarith

theorem Inverts.T_pos (h : Inverts xl xr g Y) : 0 < ∫ t in xl..xr, g t := by
  have := h.strict (le_refl xl) h.lt (le_refl xr)
  simpa using this

theorem Inverts.le_iff (h : Inverts xl xr g Y) {t : ℝ} (ht : t ∈ Icc xl xr) {v : ℝ} (hv : v ∈ Ico (0 : ℝ) 1) : Y v ≤ t ↔ v ≤ (∫ x in xl..t, g x) / ∫ x in xl..xr, g x := by
  rw [le_div_iff₀ h.T_pos, ← h.inv v hv]
  constructor
  · intro hle
    rcases hle.eq_or_lt with e | e
    · rw [e]
    · exact (h.strict (h.mem v).1 e ht.2).le
  · intro hle
    by_contra hn
    have := h.strict ht.1 (not_le.mp hn) (h.mem v).2
    linarith

theorem Inverts.cum_mem (h : Inverts xl xr g Y) {t : ℝ} (ht : t ∈ Icc xl xr) : 0 ≤ (∫ x in xl..t, g x) / (∫ x in xl..xr, g x) ∧ (∫ x in xl..t, g x) / (∫ x in xl..xr, g x) ≤ 1 := by
  have hT := h.T_pos
  constructor
  · apply div_nonneg _ hT.le
    rcases ht.1.eq_or_lt with e | e
    · rw [← e]; simp
    · have := h.strict (le_refl _) e ht.2
      simp at this
      exact this.le
  · rw [div_le_one hT]
    rcases ht.2.eq_or_lt with e | e
    · rw [e]
    · exact (h.strict ht.1 e (le_refl _)).le

theorem Inverts.measY (h : Inverts xl xr g Y) : Measurable Y := by
  refine measurable_of_Iic fun t => ?_
  rcases lt_or_ge t xl with h1 | h1
  · have : Y ⁻¹' Iic t = ∅ := by
      ext v; simp only [mem_preimage, mem_Iic, mem_empty_iff_false, iff_false, not_le]
      linarith [(h.mem v).1]
    rw [this]; exact MeasurableSet.empty
  · rcases le_or_gt xr t with h2 | h2
    · have : Y ⁻¹' Iic t = univ := by
        ext v; simp only [mem_preimage, mem_Iic, mem_univ, iff_true]
        linarith [(h.mem v).2]
      rw [this]; exact MeasurableSet.univ
    · have : Y ⁻¹' Iic t = (Ico (0 : ℝ) 1)ᶜ ∪ (Ico 0 1 ∩ Iic ((∫ x in xl..t, g x) / ∫ x in xl..xr, g x)) := by
        ext v
        simp only [mem_preimage, mem_Iic, mem_union, mem_compl_iff, mem_inter_iff]
        by_cases hv : v ∈ Ico (0 : ℝ) 1
        · simp only [hv, not_true, false_or, true_and]
          exact h.le_iff ⟨h1, h2.le⟩ hv
        · simp only [hv, not_false_eq_true, true_or, iff_true]
          rw [h.out v hv]; exact h1
      rw [this]
      exact measurableSet_Ico.compl.union (measurableSet_Ico.inter measurableSet_Iic)

/-- The law of the sampler has density g over its integral. -/
theorem Inverts.law (h : Inverts xl xr g Y) : (volume.restrict (Ico (0 : ℝ) 1)).map Y = (volume.restrict (Ioc xl xr)).withDensity (fun x => ENNReal.ofReal (g x / ∫ t in xl..xr, g t)) := by
  have hT := h.T_pos
  have key : ∀ t ∈ Icc xl xr, ∫⁻ x in Ioc xl t, ENNReal.ofReal (g x / ∫ t in xl..xr, g t) = ENNReal.ofReal ((∫ x in xl..t, g x) / ∫ t in xl..xr, g t) := by
    intro t ht
    rw [intervalIntegral.integral_of_le ht.1, ← integral_div, ofReal_integral_eq_lintegral_ofReal]
    · exact ((intervalIntegrable_iff_integrableOn_Ioc_of_le ht.1).mp (h.int t ht)).div_const _
    · filter_upwards [ae_restrict_mem measurableSet_Ioc] with x hx
      exact div_nonneg (h.pos x ⟨hx.1, hx.2.trans ht.2⟩).le hT.le
  have : IsFiniteMeasure ((volume.restrict (Ioc xl xr)).withDensity (fun x => ENNReal.ofReal (g x / ∫ t in xl..xr, g t))) := by
    refine ⟨?_⟩
    rw [withDensity_apply _ MeasurableSet.univ, Measure.restrict_univ, key xr ⟨h.lt.le, le_refl _⟩]
    exact ENNReal.ofReal_lt_top
  have : IsFiniteMeasure ((volume.restrict (Ico (0 : ℝ) 1)).map Y) := inferInstance
  refine Measure.ext_of_Iic _ _ fun t => ?_
  rw [Measure.map_apply h.measY measurableSet_Iic, withDensity_apply _ measurableSet_Iic, Measure.restrict_restrict measurableSet_Iic, Measure.restrict_apply (h.measY measurableSet_Iic)]
  rcases lt_or_ge t xl with h1 | h1
  · have e1 : Y ⁻¹' Iic t ∩ Ico 0 1 = ∅ := by
      ext v; simp only [mem_inter_iff, mem_preimage, mem_Iic, mem_empty_iff_false, iff_false, not_and]
      intro hv; linarith [(h.mem v).1]
    have e2 : Iic t ∩ Ioc xl xr = ∅ := by
      ext v; simp only [mem_inter_iff, mem_Iic, mem_Ioc, mem_empty_iff_false, iff_false, not_and]
      intro hv; intro; linarith
    rw [e1, e2]; simp
  · rcases le_or_gt xr t with h2 | h2
    · have e1 : Y ⁻¹' Iic t ∩ Ico 0 1 = Ico 0 1 := by
        ext v; simp only [mem_inter_iff, mem_preimage, mem_Iic, and_iff_right_iff_imp]
        intro; linarith [(h.mem v).2]
      have e2 : Iic t ∩ Ioc xl xr = Ioc xl xr := by
        ext v; simp only [mem_inter_iff, mem_Iic, mem_Ioc, and_iff_right_iff_imp]
        intro hv; linarith [hv.2]
      rw [e1, e2, key xr ⟨h.lt.le, le_refl _⟩, div_self hT.ne']
      simp
    · have ht : t ∈ Icc xl xr := ⟨h1, h2.le⟩
      obtain ⟨c0, c1⟩ := h.cum_mem ht
      have c1' : (∫ x in xl..t, g x) / (∫ x in xl..xr, g x) < 1 := by
        rw [div_lt_one hT]; exact h.strict h1 h2 (le_refl _)
      have e1 : Y ⁻¹' Iic t ∩ Ico 0 1 = Icc 0 ((∫ x in xl..t, g x) / ∫ x in xl..xr, g x) := by
        ext v
        simp only [mem_inter_iff, mem_preimage, mem_Iic, mem_Icc]
        constructor
        · rintro ⟨p1, p2⟩; exact ⟨p2.1, (h.le_iff ht p2).mp p1⟩
        · rintro ⟨p1, p2⟩
          have hv : v ∈ Ico (0 : ℝ) 1 := ⟨p1, by linarith⟩
          exact ⟨(h.le_iff ht hv).mpr p2, hv⟩
      have e2 : Iic t ∩ Ioc xl xr = Ioc xl t := by
        ext v; simp only [mem_inter_iff, mem_Iic, mem_Ioc]
        constructor
        · rintro ⟨p1, p2, p3⟩; exact ⟨p2, p1⟩
        · rintro ⟨p1, p2⟩; exact ⟨p2, p1, by linarith⟩
      rw [e1, e2, key t ht]
      simp

/-- A draw avoids any null set. -/
theorem Inverts.avoid (h : Inverts xl xr g Y) (N : Set ℝ) (hN : volume N = 0) : ∀ᵐ v ∂(volume.restrict (Ico (0 : ℝ) 1)), Y v ∉ N ∧ Y v ∈ Ioc xl xr := by
  have h1 : (volume.restrict (Ico (0 : ℝ) 1)).map Y (N ∪ (Ioc xl xr)ᶜ) = 0 := by
    rw [h.law]
    apply withDensity_absolutelyContinuous
    refine measure_union_null ?_ ?_
    · exact Measure.absolutelyContinuous_of_le Measure.restrict_le_self hN
    · rw [Measure.restrict_apply measurableSet_Ioc.compl, compl_inter_self, measure_empty]
  have h2 := Measure.preimage_null_of_map_null h.measY.aemeasurable h1
  rw [ae_iff]
  refine measure_mono_null ?_ h2
  intro v hv
  simp only [not_and_or, not_not, mem_ofPred_eq] at hv
  exact hv

/-- Accepting a draw x when u·g(x) < H(x): the law of accepted draws has density H over the integral of g. -/
theorem Inverts.accept (h : Inverts xl xr g Y) (H : ℝ → ℝ) (hH : Measurable H) (hle : ∀ x ∈ Ioc xl xr, 0 ≤ H x ∧ H x ≤ g x) (N : Set ℝ) (hN : volume N = 0) (A : Set (ℝ × ℝ))
    (hA : ∀ v u, v ∈ Ico (0 : ℝ) 1 → u ∈ Ico (0 : ℝ) 1 → Y v ∉ N → (u * g (Y v) < H (Y v) → (v, u) ∈ A) ∧ (H (Y v) < u * g (Y v) → (v, u) ∉ A)) (B : Set ℝ) (hB : MeasurableSet B) :
    volume {w : ℝ × ℝ | w.1 ∈ Ico (0 : ℝ) 1 ∧ w.2 ∈ Ico (0 : ℝ) 1 ∧ Y w.1 ∈ B ∧ w ∈ A} = ∫⁻ x in Ioc xl xr ∩ B, ENNReal.ofReal (H x / ∫ t in xl..xr, g t) := by
  have hY := h.measY
  have hT := h.T_pos
  set μ := volume.restrict (Ico (0 : ℝ) 1) with hμ
  have e1 : {w : ℝ × ℝ | w.1 ∈ Ico (0 : ℝ) 1 ∧ w.2 ∈ Ico (0 : ℝ) 1 ∧ Y w.1 ∈ B ∧ w ∈ A} = {w : ℝ × ℝ | Y w.1 ∈ B ∧ w ∈ A} ∩ (Ico (0 : ℝ) 1 ×ˢ Ico (0 : ℝ) 1) := by
    ext w
    simp only [mem_ofPred_eq, mem_inter_iff, mem_prod]
    tauto
  have e2 : (volume : Measure (ℝ × ℝ)).restrict (Ico (0 : ℝ) 1 ×ˢ Ico (0 : ℝ) 1) = μ.prod μ := by
    rw [Measure.volume_eq_prod, ← Measure.prod_restrict]
  rw [e1, ← Measure.restrict_apply' (measurableSet_Ico.prod measurableSet_Ico), e2]
  have hav := h.avoid N hN
  have hS : MeasurableSet {w : ℝ × ℝ | w.2 * g (Y w.1) = H (Y w.1)} :=
    measurableSet_eq_fun (measurable_snd.mul (h.meas.comp (hY.comp measurable_fst))) (hH.comp (hY.comp measurable_fst))
  have hnull : ∀ᵐ w ∂(μ.prod μ), w.2 * g (Y w.1) ≠ H (Y w.1) := by
    rw [ae_iff]
    simp only [ne_eq, not_not]
    rw [Measure.measure_prod_null hS]
    filter_upwards [hav] with v hv
    have hg := h.pos _ hv.2
    refine measure_mono_null (t := {H (Y v) / g (Y v)}) ?_ ?_
    · intro u hu
      simp only [mem_preimage, mem_ofPred_eq] at hu
      rw [mem_singleton_iff, eq_div_iff hg.ne']
      exact hu
    · exact Measure.absolutelyContinuous_of_le Measure.restrict_le_self (measure_singleton _)
  have hin : ∀ᵐ v ∂μ, v ∈ Ico (0 : ℝ) 1 := ae_restrict_mem measurableSet_Ico
  have e3 : (μ.prod μ) {w : ℝ × ℝ | Y w.1 ∈ B ∧ w ∈ A} = (μ.prod μ) {w : ℝ × ℝ | Y w.1 ∈ B ∧ w.2 * g (Y w.1) < H (Y w.1)} := by
    apply measure_congr
    filter_upwards [hnull, Measure.quasiMeasurePreserving_fst.ae hin, Measure.quasiMeasurePreserving_snd.ae hin, Measure.quasiMeasurePreserving_fst.ae hav] with w w1 w2 w3 w4
    have := hA w.1 w.2 w2 w3 w4.1
    apply propext
    change (Y w.1 ∈ B ∧ w ∈ A) ↔ (Y w.1 ∈ B ∧ w.2 * g (Y w.1) < H (Y w.1))
    constructor
    · rintro ⟨p1, p2⟩
      refine ⟨p1, ?_⟩
      rcases lt_or_gt_of_ne w1 with q | q
      · exact q
      · exact absurd p2 (this.2 q)
    · rintro ⟨p1, p2⟩
      exact ⟨p1, this.1 p2⟩
  have hM : MeasurableSet {w : ℝ × ℝ | Y w.1 ∈ B ∧ w.2 * g (Y w.1) < H (Y w.1)} :=
    (hY.comp measurable_fst hB).inter (measurableSet_lt (measurable_snd.mul (h.meas.comp (hY.comp measurable_fst))) (hH.comp (hY.comp measurable_fst)))
  rw [e3, Measure.prod_apply hM]
  have e4 : ∀ᵐ v ∂μ, μ (Prod.mk v ⁻¹' {w : ℝ × ℝ | Y w.1 ∈ B ∧ w.2 * g (Y w.1) < H (Y w.1)}) = B.indicator (fun x => ENNReal.ofReal (H x / g x)) (Y v) := by
    filter_upwards [hav] with v hv
    have hg := h.pos _ hv.2
    obtain ⟨l1, l2⟩ := hle _ hv.2
    by_cases hvB : Y v ∈ B
    · rw [indicator_of_mem hvB]
      have : Prod.mk v ⁻¹' {w : ℝ × ℝ | Y w.1 ∈ B ∧ w.2 * g (Y w.1) < H (Y w.1)} = Iio (H (Y v) / g (Y v)) := by
        ext u
        simp only [mem_preimage, mem_ofPred_eq, hvB, true_and, mem_Iio]
        rw [lt_div_iff₀ hg]
      have h1 : H (Y v) / g (Y v) ≤ 1 := by rw [div_le_one hg]; exact l2
      rw [this, hμ, Measure.restrict_apply measurableSet_Iio]
      have : Iio (H (Y v) / g (Y v)) ∩ Ico 0 1 = Ico 0 (H (Y v) / g (Y v)) := by
        ext u
        simp only [mem_inter_iff, mem_Iio, mem_Ico]
        constructor
        · rintro ⟨p1, p2, p3⟩; exact ⟨p2, p1⟩
        · rintro ⟨p1, p2⟩; exact ⟨p2, p1, by linarith⟩
      rw [this, Real.volume_Ico, sub_zero]
    · rw [indicator_of_notMem hvB]
      have : Prod.mk v ⁻¹' {w : ℝ × ℝ | Y w.1 ∈ B ∧ w.2 * g (Y w.1) < H (Y w.1)} = ∅ := by
        ext u
        simp [hvB]
      rw [this, measure_empty]
  have hk : Measurable (B.indicator fun x => ENNReal.ofReal (H x / g x)) := (ENNReal.measurable_ofReal.comp (hH.div h.meas)).indicator hB
  have hd : Measurable fun x => ENNReal.ofReal (g x / ∫ t in xl..xr, g t) := ENNReal.measurable_ofReal.comp (h.meas.div_const _)
  rw [lintegral_congr_ae e4, ← lintegral_map hk hY, h.law, lintegral_withDensity_eq_lintegral_mul _ hd hk, inter_comm, ← Measure.restrict_restrict hB, ← lintegral_indicator hB]
  apply lintegral_congr_ae
  filter_upwards [ae_restrict_mem measurableSet_Ioc] with x hx
  have hg := h.pos x hx
  by_cases hxB : x ∈ B
  · simp only [Pi.mul_apply, indicator_of_mem hxB]
    rw [← ENNReal.ofReal_mul (div_nonneg hg.le hT.le)]
    congr 1
    field_simp
  · simp [indicator_of_notMem hxB]

end Apop.Arms
