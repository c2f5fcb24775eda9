import Verif.Dist.LogLik
import Mathlib.Analysis.SpecialFunctions.Gamma.Deriv
import Mathlib.Analysis.SpecialFunctions.Log.Deriv
import Mathlib.Analysis.Calculus.Deriv.Mul
import Mathlib.Analysis.Calculus.Deriv.Inv
import Mathlib.Analysis.Calculus.Deriv.Add
import Mathlib.Analysis.Calculus.Deriv.Pow

/-! # C75: the scores are the derivatives of the log likelihoods

`gsl_sf_psi` is the digamma function: the derivative of the gamma function over the gamma function (GSL). -/

namespace Apop.Dist
open Real

/-- `gsl_sf_psi` (GSL). -/
noncomputable def psi (x : ℝ) : ℝ := deriv Gamma x / Gamma x

/-! ## The models -/

/-- `normal_dlog_likelihood`, model/apop_normal.c:114-125. -/
noncomputable def normalScore (mu sd : ℝ) (d : D) : ℝ × ℝ :=
  ((d.mapSum fun x => x - mu) / sd ^ 2, (d.mapSum fun x => (x - mu) ^ 2) / sd ^ 3 - d.tsize / sd)

/-- `lognormal_dlog_likelihood`, model/apop_normal.c:229-238. -/
noncomputable def lognormalScore (mu sd : ℝ) (d : D) : ℝ × ℝ :=
  ((d.mapSum log - mu * d.tsize) / sd ^ 2, (d.mapSum fun x => (log x - mu) ^ 2) / sd ^ 3 - d.tsize / sd)

/-- `exponential_dlog_likelihood`, model/apop_exponential.c:42-50. -/
noncomputable def expoScore (mu : ℝ) (d : D) : ℝ := d.total / mu ^ 2 - d.tsize / mu

/-- `gamma_dlog_likelihood`, model/apop_gamma.c:52-67. -/
noncomputable def gammaScore (a b : ℝ) (d : D) : ℝ × ℝ := (d.mapSum fun x => log x - (psi a + log b), d.mapSum fun x => x / b ^ 2 - a / b)

/-- `beta_dlog_likelihood`, model/apop_beta.c:65-76. -/
noncomputable def betaScore (a b : ℝ) (d : D) : ℝ × ℝ :=
  (d.mapSum log + (psi (a + b) - psi a) * d.tsize, (d.mapSum fun x => log (1 - x)) + (psi (a + b) - psi b) * d.tsize)

/-- `poisson_dlog_likelihood`, model/apop_poisson.c:64-71: only the matrix is summed; `apop_matrix_sum` of NULL is zero. -/
noncomputable def poissonScore (lam : ℝ) (d : D) : ℝ := (match d.mat with | none => 0 | some m => Stats.matrixSum m.rows) / lam - d.tsize

/-- `yule_dlog_likelihood`, model/apop_yule.c:51-61. -/
noncomputable def yuleScore (bb : ℝ) (d : D) : ℝ := (d.mapSum fun x => -psi (x + bb)) + (1 / (bb - 1) + psi bb) * d.tsize

/-! ## Proofs -/

theorem hasDerivAt_sum {f : ℝ → ℝ → ℝ} {f' : ℝ → ℝ} {t : ℝ} : ∀ {l : List ℝ}, (∀ x ∈ l, HasDerivAt (fun t => f x t) (f' x) t) →
    HasDerivAt (fun t => (l.map fun x => f x t).sum) (l.map f').sum t
  | [], _ => by simpa using hasDerivAt_const t (0 : ℝ)
  | x :: l, h => by
    simp only [List.map_cons, List.sum_cons]
    exact (h x (by simp)).add (hasDerivAt_sum fun y hy => h y (by simp [hy]))

theorem hasDerivAt_mapSum {f : ℝ → ℝ → ℝ} {f' : ℝ → ℝ} {t : ℝ} {d : D} (h : ∀ x ∈ d.cells, HasDerivAt (fun t => f t x) (f' x) t) :
    HasDerivAt (fun t => d.mapSum (f t)) (d.mapSum f') t := by
  simp only [mapSum_eq]
  exact hasDerivAt_sum (f := fun x t => f t x) h

/-- The digamma function is the derivative of the log of the gamma function. -/
theorem hasDerivAt_lnGamma {a : ℝ} (h : 0 < a) : HasDerivAt (fun t => log (Gamma t)) (psi a) a := by
  have hd : DifferentiableAt ℝ Gamma a := differentiableAt_Gamma (by intro m hm; have : (0 : ℝ) ≤ m := Nat.cast_nonneg m; linarith)
  exact hd.hasDerivAt.log (Gamma_pos_of_pos h).ne'

/-- **C75 (normal).** -/
theorem C75_normal (mu sd : ℝ) (hsd : 0 < sd) (d : D) :
    HasDerivAt (fun m => normalLl m sd d) (normalScore mu sd d).1 mu ∧ HasDerivAt (fun s => normalLl mu s d) (normalScore mu sd d).2 sd := by
  constructor
  · have h1 : HasDerivAt (fun m => d.mapSum fun x => (x - m) ^ 2) (d.mapSum fun x => -2 * (x - mu)) mu := by
      apply hasDerivAt_mapSum
      intro x _
      have := ((hasDerivAt_id mu).const_sub x).pow 2
      refine HasDerivAt.congr_deriv this ?_
      simp
    have h2 := (h1.neg.div_const (2 * sd ^ 2)).sub_const (d.tsize * ((log π + log 2) / 2 + log sd))
    refine HasDerivAt.congr_deriv h2 ?_
    simp only [normalScore, mapSum_eq, sum_map_mul']
    field_simp
  · have h1 : HasDerivAt (fun s => -(d.mapSum fun x => (x - mu) ^ 2) / (2 * s ^ 2)) ((d.mapSum fun x => (x - mu) ^ 2) / sd ^ 3) sd := by
      have e : HasDerivAt (fun s : ℝ => 2 * s ^ 2) (2 * (2 * sd)) sd := by
        have := ((hasDerivAt_id sd).pow 2).const_mul 2
        refine HasDerivAt.congr_deriv this ?_
        simp
      have := (hasDerivAt_const sd (-(d.mapSum fun x => (x - mu) ^ 2))).div e (by positivity)
      refine HasDerivAt.congr_deriv this ?_
      field_simp
      ring
    have h2 : HasDerivAt (fun s => (d.tsize : ℝ) * ((log π + log 2) / 2 + log s)) (d.tsize * (1 / sd)) sd := by
      have := ((hasDerivAt_log hsd.ne').const_add ((log π + log 2) / 2)).const_mul (d.tsize : ℝ)
      simpa using this
    have := h1.sub h2
    refine HasDerivAt.congr_deriv this ?_
    simp only [normalScore]
    ring

/-- **C75 (lognormal).** -/
theorem C75_lognormal (mu sd : ℝ) (hsd : 0 < sd) (d : D) (hw : d.WF) :
    HasDerivAt (fun m => lognormalLl m sd d) (lognormalScore mu sd d).1 mu ∧ HasDerivAt (fun s => lognormalLl mu s d) (lognormalScore mu sd d).2 sd := by
  constructor
  · have h1 : HasDerivAt (fun m => d.mapSum fun x => (log x - m) ^ 2) (d.mapSum fun x => -2 * (log x + -1 * mu)) mu := by
      apply hasDerivAt_mapSum
      intro x _
      have := ((hasDerivAt_id mu).const_sub (log x)).pow 2
      refine HasDerivAt.congr_deriv this ?_
      simp
      ring
    have h2 := ((h1.neg.div_const (2 * sd ^ 2)).sub_const (d.mapSum log)).sub_const (d.tsize * ((log π + log 2) / 2 + log sd))
    refine HasDerivAt.congr_deriv h2 ?_
    simp only [lognormalScore, mapSum_eq, sum_map_mul', sum_map_add', sum_map_const, tsize_eq hw]
    field_simp
    ring
  · have h1 : HasDerivAt (fun s => -(d.mapSum fun x => (log x - mu) ^ 2) / (2 * s ^ 2)) ((d.mapSum fun x => (log x - mu) ^ 2) / sd ^ 3) sd := by
      have e : HasDerivAt (fun s : ℝ => 2 * s ^ 2) (2 * (2 * sd)) sd := by
        have := ((hasDerivAt_id sd).pow 2).const_mul 2
        refine HasDerivAt.congr_deriv this ?_
        simp
      have := (hasDerivAt_const sd (-(d.mapSum fun x => (log x - mu) ^ 2))).div e (by positivity)
      refine HasDerivAt.congr_deriv this ?_
      field_simp
      ring
    have h2 : HasDerivAt (fun s => (d.tsize : ℝ) * ((log π + log 2) / 2 + log s)) (d.tsize * (1 / sd)) sd := by
      have := ((hasDerivAt_log hsd.ne').const_add ((log π + log 2) / 2)).const_mul (d.tsize : ℝ)
      simpa using this
    have := (h1.sub_const (d.mapSum log)).sub h2
    refine HasDerivAt.congr_deriv this ?_
    simp only [lognormalScore]
    ring

/-- **C75 (exponential).** -/
theorem C75_exponential (mu : ℝ) (hmu : 0 < mu) (d : D) : HasDerivAt (fun m => expoLl m d) (expoScore mu d) mu := by
  have h1 := (hasDerivAt_const mu (-d.total)).div (hasDerivAt_id mu) hmu.ne'
  have h2 := (hasDerivAt_log hmu.ne').const_mul (d.tsize : ℝ)
  have := h1.sub h2
  refine HasDerivAt.congr_deriv this ?_
  simp only [expoScore, id]
  field_simp
  ring

/-- **C75 (gamma).** For data without zeros. -/
theorem C75_gamma (a b : ℝ) (ha : 0 < a) (hb : 0 < b) (d : D) (hx : ∀ x ∈ d.cells, 0 < x) :
    HasDerivAt (fun t => gammaLl t b d) (gammaScore a b d).1 a ∧ HasDerivAt (fun t => gammaLl a t d) (gammaScore a b d).2 b := by
  constructor
  · apply hasDerivAt_mapSum (f := fun t => gammaApply t b (log (Gamma t) + t * log b))
    intro x hxx
    simp only [gammaApply, if_pos (hx x hxx).ne']
    have h1 := ((hasDerivAt_id a).sub_const 1).mul_const (log x)
    have h2 := (hasDerivAt_lnGamma ha).add ((hasDerivAt_id a).mul_const (log b))
    have := (h1.sub_const (x / b)).sub h2
    refine HasDerivAt.congr_deriv this ?_
    ring
  · apply hasDerivAt_mapSum (f := fun t => gammaApply a t (log (Gamma a) + a * log t))
    intro x hxx
    simp only [gammaApply, if_pos (hx x hxx).ne']
    have h1 := (hasDerivAt_const b x).div (hasDerivAt_id b) hb.ne'
    have h2 := ((hasDerivAt_log hb.ne').const_mul a).const_add (log (Gamma a))
    have := (h1.const_sub ((a - 1) * log x)).sub h2
    refine HasDerivAt.congr_deriv this ?_
    simp only [id]
    field_simp
    ring

theorem hasDerivAt_lnBeta_left {a b : ℝ} (ha : 0 < a) (hb : 0 < b) : HasDerivAt (fun t => log (ProbabilityTheory.beta t b)) (psi a - psi (a + b)) a := by
  have h1 := ((hasDerivAt_lnGamma ha).add_const (log (Gamma b))).sub ((hasDerivAt_lnGamma (add_pos ha hb)).comp_add_const a b)
  refine h1.congr_of_eventuallyEq ?_
  filter_upwards [lt_mem_nhds ha] with t ht
  have g1 := Gamma_pos_of_pos ht
  have g2 := Gamma_pos_of_pos hb
  have g3 := Gamma_pos_of_pos (add_pos ht hb)
  simp only [ProbabilityTheory.beta, Pi.sub_apply]
  rw [log_div (by positivity) g3.ne', log_mul g1.ne' g2.ne']

theorem beta_comm (a b : ℝ) : ProbabilityTheory.beta a b = ProbabilityTheory.beta b a := by
  simp only [ProbabilityTheory.beta]; rw [mul_comm, add_comm]

/-- **C75 (beta).** For data strictly between zero and one. -/
theorem C75_beta (a b : ℝ) (ha : 0 < a) (hb : 0 < b) (d : D) (hx : ∀ x ∈ d.cells, 0 < x ∧ x < 1) :
    HasDerivAt (fun t => betaLl t b d) (betaScore a b d).1 a ∧ HasDerivAt (fun t => betaLl a t d) (betaScore a b d).2 b := by
  have e : ∀ x ∈ d.cells, ∀ a b, betaMap a b x = (a - 1) * log x + (b - 1) * log (1 - x) := by
    intro x h a b
    have := hx x h
    rw [betaMap, if_neg (by push Not; exact ⟨this.1.le, this.2.le⟩)]
  constructor
  · have h1 : HasDerivAt (fun t => d.mapSum (betaMap t b)) (d.mapSum log) a := by
      apply hasDerivAt_mapSum
      intro x h
      simp only [e x h]
      have := (((hasDerivAt_id a).sub_const 1).mul_const (log x)).add_const ((b - 1) * log (1 - x))
      simpa using this
    have := h1.sub ((hasDerivAt_lnBeta_left ha hb).mul_const (d.tsize : ℝ))
    refine HasDerivAt.congr_deriv this ?_
    simp only [betaScore]
    ring
  · have h1 : HasDerivAt (fun t => d.mapSum (betaMap a t)) (d.mapSum fun x => log (1 - x)) b := by
      apply hasDerivAt_mapSum
      intro x h
      simp only [e x h]
      have := (((hasDerivAt_id b).sub_const 1).mul_const (log (1 - x))).const_add ((a - 1) * log x)
      simpa using this
    have h2 : HasDerivAt (fun t => log (ProbabilityTheory.beta a t)) (psi b - psi (a + b)) b := by
      have := hasDerivAt_lnBeta_left hb ha
      simp only [beta_comm _ a, add_comm b a] at this
      exact this
    have := h1.sub (h2.mul_const (d.tsize : ℝ))
    refine HasDerivAt.congr_deriv this ?_
    simp only [betaScore]
    ring

/-- **C75 (Yule).** -/
theorem C75_yule (bb : ℝ) (hb : 1 < bb) (d : D) (hx : ∀ x ∈ d.cells, 1 ≤ x) : HasDerivAt (fun t => yuleLl t d) (yuleScore bb d) bb := by
  have h1 : HasDerivAt (fun t => d.mapSum (yuleApply t)) (d.mapSum fun x => -psi (x + bb)) bb := by
    apply hasDerivAt_mapSum
    intro x h
    have h1 := hx x h
    simp only [yuleApply, ge_iff_le, h1, if_true]
    have := ((hasDerivAt_lnGamma (show 0 < x + bb by linarith)).comp_const_add x bb).const_sub (log (Gamma x))
    exact this
  have h2 : HasDerivAt (fun t => log (t - 1)) (1 / (bb - 1)) bb := by
    have := ((hasDerivAt_id bb).sub_const 1).log (by simp only [id]; linarith)
    simpa using this
  exact h1.add ((h2.add (hasDerivAt_lnGamma (by linarith))).mul_const (d.tsize : ℝ))

/-- **C75 (Poisson).** For counts in a matrix, the log likelihood being finite. -/
theorem C75_poisson (lam : ℝ) (hl : 0 < lam) (m : Mat ℝ) (hn : ∀ x ∈ m.rows.flatten, ∃ n : ℕ, x = n) :
    (∀ l, (poissonLl l ⟨none, some m⟩).isSome = true) ∧ HasDerivAt (fun l => (poissonLl l ⟨none, some m⟩).getD 0) (poissonScore lam ⟨none, some m⟩) lam := by
  have hc : (⟨none, some m⟩ : D).cells = m.rows.flatten := by simp [D.cells]
  have e : ∀ (l : ℝ), ∀ x ∈ m.rows.flatten, poissonApply (log l) x = some (if x = 0 then 0 else log l * x - log (Gamma (x + 1))) := by
    intro l x hx
    obtain ⟨n, rfl⟩ := hn x hx
    rw [poissonApply, if_neg (by push Not; exact Nat.cast_nonneg n), if_neg (by simp)]
  have e2 : ∀ l, poissonLl l ⟨none, some m⟩ = some ((m.rows.flatten.map fun x => if x = 0 then 0 else log l * x - log (Gamma (x + 1))).sum - (⟨none, some m⟩ : D).tsize * l) := by
    intro l
    rw [poissonLl, hc, optSum_some (e l)]
    rfl
  refine ⟨fun l => by rw [e2]; rfl, ?_⟩
  simp only [e2, Option.getD_some]
  have h1 : HasDerivAt (fun l => (m.rows.flatten.map fun x => if x = 0 then 0 else log l * x - log (Gamma (x + 1))).sum) (m.rows.flatten.map fun x => 1 / lam * x).sum lam := by
    apply hasDerivAt_sum (f := fun x l => if x = 0 then 0 else log l * x - log (Gamma (x + 1)))
    intro x _
    by_cases h : x = 0
    · simp only [h, if_true, mul_zero]
      exact hasDerivAt_const lam (0 : ℝ)
    · simp only [h, if_false]
      have := ((hasDerivAt_log hl.ne').mul_const x).sub_const (log (Gamma (x + 1)))
      simpa using this
  have h2 := h1.sub ((hasDerivAt_id lam).const_mul ((⟨none, some m⟩ : D).tsize : ℝ))
  refine HasDerivAt.congr_deriv h2 ?_
  rw [sum_map_mul' (1 / lam) (fun x => x), List.map_id']
  simp only [poissonScore, Stats.matrixSum_eq]
  ring

/-- With the counts in the vector, the Poisson score is wrong: it is minus the number of observations whatever they are; the derivative at 1 for one observation of 2 is 1. -/
theorem C75_poisson_vector_refuted : poissonScore 1 ⟨some [2], none⟩ = -1 ∧ HasDerivAt (fun l => (poissonLl l ⟨some [2], none⟩).getD 0) 1 1 := by
  constructor
  · simp [poissonScore, D.tsize, D.vsize, D.msize1, D.msize2]
  · have hc : (⟨some [2], none⟩ : D).cells = [2] := by simp [D.cells]
    have ha : ∀ l, poissonApply (log l) 2 = some (log l * 2 - log (Gamma (2 + 1))) := by
      intro l
      have : ⌊(2 : ℝ)⌋ = 2 := by norm_num
      rw [poissonApply, if_neg (by norm_num), if_neg (by rw [this]; norm_num), if_neg (by norm_num)]
    have e2 : ∀ l, (poissonLl l ⟨some [2], none⟩).getD 0 = log l * 2 - log (Gamma (2 + 1)) - l := by
      intro l
      have ht : (⟨some [2], none⟩ : D).tsize = 1 := by simp [D.tsize, D.vsize, D.msize1, D.msize2]
      simp [poissonLl, hc, optSum, ha, ht]
    simp only [e2]
    have := (((hasDerivAt_log one_ne_zero).mul_const (2 : ℝ)).sub_const (log (Gamma (2 + 1)))).sub (hasDerivAt_id 1)
    refine HasDerivAt.congr_deriv this ?_
    norm_num

/-- A zero is left out of the gamma's log likelihood, but not out of its score: here the log likelihood is constant in b, the score is not zero. -/
theorem C75_gamma_zero_refuted : (∀ b, gammaLl 1 b ⟨some [0], none⟩ = 0) ∧ (gammaScore 1 2 ⟨some [0], none⟩).2 = -(1 / 2) := by
  constructor
  · intro b; simp [gammaLl, mapSum_eq, D.cells, gammaApply]
  · simp [gammaScore, mapSum_eq, D.cells]

end Apop.Dist
