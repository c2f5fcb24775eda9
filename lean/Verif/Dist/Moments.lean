import Verif.Dist.Estimate

/-! # C78: estimates by the method of moments: gamma and beta -/

namespace Apop.Dist
open Real

/-! ## The models -/

/-- `gamma_est`, model/apop_gamma.c:107-108: mean and variance, each part's weighted by its share of the elements. `none` is NaN. -/
noncomputable def gammaMeanVar (d : D) : ℝ × Option ℝ :=
  ((mmv d).1 * (d.msize1 * d.msize2 / d.tsize) + vmean d * (d.vsize / d.tsize),
    (vvar d).map fun vv => (mmv d).2 * (d.msize1 * d.msize2 / d.tsize) + vv * (d.vsize / d.tsize))

/-- `gamma_est`, model/apop_gamma.c:98-111: shape and scale. -/
noncomputable def gammaEst (d : D) : Option (ℝ × ℝ) := (gammaMeanVar d).2.map fun var => ((gammaMeanVar d).1 ^ 2 / var, var / (gammaMeanVar d).1)

/-- `beta_estimate`, model/apop_beta.c:29-30: as above, but the shares are quotients of integers. -/
noncomputable def betaMeanVar (d : D) : ℝ × Option ℝ :=
  ((mmv d).1 * ((d.msize1 * d.msize2 / d.tsize : ℕ) : ℝ) + vmean d * ((d.vsize / d.tsize : ℕ) : ℝ),
    (vvar d).map fun vv => (mmv d).2 * ((d.msize1 * d.msize2 / d.tsize : ℕ) : ℝ) + vv * ((d.vsize / d.tsize : ℕ) : ℝ))

/-- `beta_estimate`, model/apop_beta.c:32-33, for a mean and a variance. -/
noncomputable def betaAb (mean var : ℝ) : ℝ × ℝ := (mean ^ 2 * ((1 - mean) / var - 1 / mean), mean ^ 2 * ((1 - mean) / var - 1 / mean) * (1 - mean) / mean)

/-- `beta_estimate`, model/apop_beta.c:19-38. -/
noncomputable def betaEst (d : D) : Option (ℝ × ℝ) := (betaMeanVar d).2.map (betaAb (betaMeanVar d).1)

/-! ## Specification -/

/-- The variance the library takes of data in one part: over n for a matrix, over n - 1 for a vector. -/
noncomputable def partVar (d : D) : ℝ := match d.vec with
  | none => msd d
  | some _ => (d.cells.map fun x => (x - mean d) ^ 2).sum / ((d.cells.length : ℝ) - 1)

/-! ## Proofs -/

theorem shares {d : D} (h : OnePart d) (h2 : d.mat = none → 2 ≤ d.cells.length) : gammaMeanVar d = (mean d, some (partVar d)) ∧ betaMeanVar d = (mean d, some (partVar d)) := by
  rcases h.cases with ⟨v, hv, rfl⟩ | ⟨m, hm, hne, h1, rfl⟩
  · have hl : v.length ≠ 0 := by rwa [ne_eq, List.length_eq_zero_iff]
    have hl' : (v.length : ℝ) ≠ 0 := by exact_mod_cast hl
    obtain ⟨e1, e2, e3, e4⟩ := vec_only (v := v)
    have h2 := h2 rfl
    rw [e4] at h2
    have hvv : vvar ⟨some v, none⟩ = some (partVar ⟨some v, none⟩) := by
      simp only [vvar, e1, hl, if_false, partVar, mean, e4]
      exact Stats.C52_var v h2
    have hvm : vmean ⟨some v, none⟩ = mean ⟨some v, none⟩ := by simp [vmean, e1, hv, mean, e4, Stats.gslMean]
    have hnd : v.length / v.length = 1 := Nat.div_self (Nat.pos_of_ne_zero hl)
    constructor
    · simp [gammaMeanVar, hvv, hvm, e1, e2, e3, hv]
    · simp [betaMeanVar, hvv, hvm, e1, e2, e3, hnd]
  · obtain ⟨e1, e2, e3, e4⟩ := mat_only (m := m)
    have ht : (⟨none, some m⟩ : D).tsize = m.rows.flatten.length := by rw [tsize_eq h.wf, e4]
    have hfl := flatten_length hm
    have hl0 : m.rows.flatten.length ≠ 0 := by rw [ne_eq, List.length_eq_zero_iff]; exact hne
    have hl : (m.rows.flatten.length : ℝ) ≠ 0 := by exact_mod_cast hl0
    have hl2 : (m.size1 : ℝ) * m.cols = m.rows.flatten.length := by rw [hfl]; push_cast; rfl
    have hmv : mmv ⟨none, some m⟩ = (mean ⟨none, some m⟩, partVar ⟨none, some m⟩) := by
      simp only [mmv, e2, h1, if_false, Option.map_some, Option.getD_some, mean, msd, e4, partVar]
      exact Stats.C53_matrix_var _ hne
    have hvm : vmean ⟨none, some m⟩ = 0 := by simp [vmean, e1]
    have hvv : vvar ⟨none, some m⟩ = some 0 := by simp [vvar, e1]
    have hnd : m.size1 * m.cols / m.rows.flatten.length = 1 := by rw [← hfl]; exact Nat.div_self (Nat.pos_of_ne_zero hl0)
    constructor
    · simp only [gammaMeanVar, hmv, hvm, hvv, e1, e2, e3, ht, hl2, div_self hl]; simp
    · simp only [betaMeanVar, hmv, hvm, hvv, e1, e2, e3, ht, hnd]; simp

/-- **C78 (gamma).** For data in a vector or in a matrix, of mean and variance not zero: the gamma distribution of the estimated shape and scale has the data's mean (shape times scale) and variance (shape times the scale's square). -/
theorem C78_gamma (d : D) (h : OnePart d) (h2 : d.mat = none → 2 ≤ d.cells.length) (hm : mean d ≠ 0) (hv : partVar d ≠ 0) :
    ∃ a b, gammaEst d = some (a, b) ∧ a * b = mean d ∧ a * b ^ 2 = partVar d := by
  refine ⟨mean d ^ 2 / partVar d, partVar d / mean d, ?_, by field_simp, by field_simp⟩
  rw [gammaEst, (shares h h2).1]; rfl

/-- **C78 (beta).** For data in a vector or in a matrix, of mean between zero and one and variance positive and less than mean (1 - mean): the estimates α and β are positive, and the beta distribution of them has the data's mean, α/(α+β), and variance, αβ/((α+β)²(α+β+1)). -/
theorem C78_beta (d : D) (h : OnePart d) (h2 : d.mat = none → 2 ≤ d.cells.length) (hm0 : 0 < mean d) (hm1 : mean d < 1) (hv0 : 0 < partVar d) (hv : partVar d < mean d * (1 - mean d)) :
    ∃ a b, betaEst d = some (a, b) ∧ 0 < a ∧ 0 < b ∧ a / (a + b) = mean d ∧ a * b / ((a + b) ^ 2 * (a + b + 1)) = partVar d := by
  refine ⟨(betaAb (mean d) (partVar d)).1, (betaAb (mean d) (partVar d)).2, by rw [betaEst, (shares h h2).2]; rfl, ?_⟩
  simp only [betaAb]
  generalize mean d = m at *
  generalize partVar d = v at *
  have h1m : 0 < 1 - m := by linarith
  have hg : 0 < m * (1 - m) - v := by linarith
  have ea : m ^ 2 * ((1 - m) / v - 1 / m) = m * (m * (1 - m) - v) / v := by field_simp
  have eb : m ^ 2 * ((1 - m) / v - 1 / m) * (1 - m) / m = (1 - m) * (m * (1 - m) - v) / v := by rw [ea]; field_simp
  rw [eb, ea]
  have es : m * (m * (1 - m) - v) / v + (1 - m) * (m * (1 - m) - v) / v = (m * (1 - m) - v) / v := by field_simp; ring
  have es1 : (m * (1 - m) - v) / v + 1 = m * (1 - m) / v := by field_simp; ring
  refine ⟨by positivity, by positivity, ?_, ?_⟩
  · rw [es]; field_simp
  · rw [es, es1]; field_simp

/-- The gamma's mean is right in any arrangement of the numbers. -/
theorem C78_gamma_mean (d : D) (hw : d.WF) (hne : d.cells ≠ []) : (gammaMeanVar d).1 = mean d := by
  obtain ⟨vec, mat⟩ := d
  have hN : ((D.cells ⟨vec, mat⟩).length : ℝ) ≠ 0 := by rw [Nat.cast_ne_zero, ne_eq, List.length_eq_zero_iff]; exact hne
  have hv : vmean ⟨vec, mat⟩ * (D.vsize ⟨vec, mat⟩ : ℝ) = (vec.getD []).sum := by
    unfold vmean
    by_cases h0 : D.vsize ⟨vec, mat⟩ = 0
    · rw [if_pos h0]
      cases vec with
      | none => simp
      | some v => simp only [D.vsize, List.length_eq_zero_iff] at h0; simp [h0]
    · rw [if_neg h0]
      cases vec with
      | none => simp [D.vsize] at h0
      | some v =>
        simp only [D.vsize] at h0 ⊢
        have : (v.length : ℝ) ≠ 0 := by exact_mod_cast h0
        simp only [Stats.gslMean, Option.getD_some]; field_simp
  have hm : (mmv ⟨vec, mat⟩).1 * ((D.msize1 ⟨vec, mat⟩ : ℝ) * (D.msize2 ⟨vec, mat⟩ : ℝ)) = (((mat.map (·.rows)).getD []).flatten).sum := by
    cases mat with
    | none => simp [D.msize1]
    | some m =>
      have hfl := flatten_length (hw m rfl)
      have hl2 : (m.size1 : ℝ) * m.cols = m.rows.flatten.length := by rw [hfl]; push_cast; rfl
      simp only [D.msize1, D.msize2, Option.map_some, Option.getD_some]
      rw [hl2]
      by_cases h0 : m.rows.flatten = []
      · simp [h0]
      · have h1 : m.size1 ≠ 0 := by
          intro h1
          simp only [Mat.size1, List.length_eq_zero_iff] at h1
          simp [h1] at h0
        have : (m.rows.flatten.length : ℝ) ≠ 0 := by rw [Nat.cast_ne_zero, ne_eq, List.length_eq_zero_iff]; exact h0
        rw [mmv, if_neg (show D.msize1 ⟨vec, some m⟩ ≠ 0 from h1), Option.map_some, Option.getD_some, Stats.C53_matrix_var _ h0]
        simp only
        field_simp
  have hc : (D.cells ⟨vec, mat⟩).sum = (vec.getD []).sum + (((mat.map (·.rows)).getD []).flatten).sum := by rw [D.cells, List.sum_append]
  rw [gammaMeanVar, mean, hc, ← hv, ← hm, tsize_eq hw]
  simp only
  ring

/-- With a vector and a matrix, the gamma's variance leaves out the difference between the two parts: for 1, 1 in a vector and 3, 3 in a matrix it is zero. -/
theorem C78_gamma_both_refuted : let d : D := ⟨some [1, 1], some ⟨[[3, 3]], 2⟩⟩
    gammaMeanVar d = (2, some 0) ∧ msd d = 1 := by
  intro d
  have h1 : Stats.vectorVar (some [(1 : ℝ), 1]) none = some 0 := by
    rw [Stats.C52_var _ (by simp)]; norm_num
  have h2 : Stats.matrixMeanVar [[(3 : ℝ), 3]] = (3, 0) := by
    rw [Stats.C53_matrix_var _ (by simp)]; norm_num
  constructor
  · norm_num [d, gammaMeanVar, mmv, vvar, vmean, D.vsize, D.msize1, D.msize2, D.tsize, Mat.size1, h1, h2, Stats.gslMean]
  · norm_num [d, msd, mean, D.cells]

/-- With a vector and a matrix, the beta's mean and variance are both zero, whatever the data: the integer quotients are. -/
theorem C78_beta_both_refuted (v : List ℝ) (m : Mat ℝ) (hv : 2 ≤ v.length) (hm : 0 < m.size1 * m.cols) : betaMeanVar ⟨some v, some m⟩ = (0, some 0) := by
  have e1 : D.vsize ⟨some v, some m⟩ / D.tsize ⟨some v, some m⟩ = 0 := Nat.div_eq_of_lt (by simp only [D.vsize, D.tsize, D.msize1, D.msize2]; omega)
  have e2 : D.msize1 ⟨some v, some m⟩ * D.msize2 ⟨some v, some m⟩ / D.tsize ⟨some v, some m⟩ = 0 := Nat.div_eq_of_lt (by simp only [D.vsize, D.tsize, D.msize1, D.msize2]; omega)
  have e3 : ∃ x, vvar ⟨some v, some m⟩ = some x := by
    rw [vvar, if_neg (by simp only [D.vsize]; omega)]
    exact ⟨_, Stats.C52_var v hv⟩
  obtain ⟨x, hx⟩ := e3
  simp [betaMeanVar, e1, e2, hx]

/-! A case that meets the hypotheses of the theorems. -/

example : let d : D := ⟨none, some ⟨[[1 / 4], [3 / 4]], 1⟩⟩
    OnePart d ∧ mean d = 1 / 2 ∧ partVar d = 1 / 16 ∧ partVar d < mean d * (1 - mean d) := by
  intro d
  have hm : mean d = 1 / 2 := by norm_num [d, mean, D.cells]
  have hv : partVar d = 1 / 16 := by
    have : partVar d = msd d := rfl
    rw [this, msd, hm]; norm_num [d, D.cells]
  refine ⟨⟨?_, by simp [d, D.cells], Or.inl rfl⟩, hm, hv, by rw [hm, hv]; norm_num⟩
  intro m hm
  simp only [d, Option.some.injEq] at hm
  subst hm
  intro r hr
  simp at hr
  rcases hr with rfl | rfl <;> rfl

end Apop.Dist
