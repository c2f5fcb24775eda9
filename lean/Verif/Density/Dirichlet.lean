import Verif.Base.C
import Verif.Dist.Score
import Mathlib.Probability.Distributions.Beta
import Mathlib.Analysis.Calculus.Deriv.Pi
import Mathlib.Tactic.FinCases

/-! # C143: the Dirichlet (model/apop_dirichlet.c)

Exact arithmetic; `gsl_sf_lngamma` is the log of the size of the gamma function, which is what the `log` of Lean's real gamma function is, away from the poles. -/

namespace Apop.Density.Dirichlet

open Apop Real Apop.Dist

variable {k : ℕ}

/-- `gsl_ran_dirichlet_lnpdf` (GSL, randist/dirichlet.c). -/
noncomputable def lnpdf (α x : Fin k → ℝ) : ℝ := ∑ i, (α i - 1) * log (x i) + log (Gamma (∑ i, α i)) - ∑ i, log (Gamma (α i))

/-- What `dirichlet_log_likelihood` returns. -/
inductive Ret where
  | val (x : ℝ)
  | nan

/-- The number returned, if any. -/
def Ret.num : Ret → Option ℝ
  | .val x => some x
  | .nan => none

/-- `dirichlet_log_likelihood`, model/apop_dirichlet.c:21-28. The rows go through `apop_map_sum` with `part='r'`. -/
noncomputable def ll (α : Fin k → ℝ) (rows : List (Fin k → ℝ)) : Ret :=
  if |∑ i, α i| < 1 / 100000 then .nan else .val ((rows.map (lnpdf α)).sum)

/-- `dirichlet_dlog_likelihood`, model/apop_dirichlet.c:30-40. -/
noncomputable def score (α : Fin k → ℝ) (rows : List (Fin k → ℝ)) (i : Fin k) : ℝ :=
  (rows.map fun x => log (x i)).sum + rows.length * psi (∑ j, α j) - rows.length * psi (α i)

/-! ### Specification -/

/-- The Dirichlet density. -/
noncomputable def pdf (α x : Fin k → ℝ) : ℝ := Gamma (∑ i, α i) / (∏ i, Gamma (α i)) * ∏ i, x i ^ (α i - 1)

/-! ### Proofs -/

theorem sum_pos' [NeZero k] {α : Fin k → ℝ} (h : ∀ i, 0 < α i) : 0 < ∑ i, α i := Finset.sum_pos (fun i _ => h i) ⟨0, by simp⟩

theorem pdf_pos [NeZero k] {α x : Fin k → ℝ} (hα : ∀ i, 0 < α i) (hx : ∀ i, 0 < x i) : 0 < pdf α x := by
  unfold pdf
  have h1 := Gamma_pos_of_pos (sum_pos' hα)
  have h2 : 0 < ∏ i, Gamma (α i) := Finset.prod_pos fun i _ => Gamma_pos_of_pos (hα i)
  have h3 : 0 < ∏ i, x i ^ (α i - 1) := Finset.prod_pos fun i _ => rpow_pos_of_pos (hx i) _
  positivity

theorem log_pdf [NeZero k] {α x : Fin k → ℝ} (hα : ∀ i, 0 < α i) (hx : ∀ i, 0 < x i) : log (pdf α x) = lnpdf α x := by
  unfold pdf lnpdf
  have h1 := Gamma_pos_of_pos (sum_pos' hα)
  have h2 : 0 < ∏ i, Gamma (α i) := Finset.prod_pos fun i _ => Gamma_pos_of_pos (hα i)
  have h3 : 0 < ∏ i, x i ^ (α i - 1) := Finset.prod_pos fun i _ => rpow_pos_of_pos (hx i) _
  rw [log_mul (by positivity) h3.ne', log_div h1.ne' h2.ne', log_prod fun i _ => (Gamma_pos_of_pos (hα i)).ne', log_prod fun i _ => (rpow_pos_of_pos (hx i) _).ne']
  simp only [log_rpow (hx _)]
  ring

/-- C143: for positive parameters whose sum is at least 1/100000 and positive data, the log likelihood is the log of the product of the Dirichlet densities of the rows. -/
theorem C143_ll [NeZero k] (α : Fin k → ℝ) (hα : ∀ i, 0 < α i) (hs : 1 / 100000 ≤ ∑ i, α i) (rows : List (Fin k → ℝ)) (hx : ∀ x ∈ rows, ∀ i, 0 < x i) :
    ll α rows = .val (log (rows.map (pdf α)).prod) := by
  unfold ll
  rw [if_neg (by rw [abs_of_nonneg (by linarith)]; linarith)]
  congr 1
  induction rows with
  | nil => simp
  | cons x l ih =>
    have hne : (l.map (pdf α)).prod ≠ 0 := by
      apply List.prod_ne_zero
      intro h0
      obtain ⟨y, hy, h⟩ := List.mem_map.mp h0
      exact (pdf_pos hα (hx y (by simp [hy]))).ne' h
    rw [List.map_cons, List.map_cons, List.prod_cons, List.sum_cons, log_mul (pdf_pos hα (hx x (by simp))).ne' hne, ih fun y hy => hx y (by simp [hy]), log_pdf hα (hx x (by simp))]

theorem score_aux [NeZero k] (α : Fin k → ℝ) (hα : ∀ i, 0 < α i) (rows : List (Fin k → ℝ)) (i : Fin k) :
    HasDerivAt (fun t => (rows.map (lnpdf (Function.update α i t))).sum) (score α rows i) (α i) := by
  have hsum : ∀ t, ∑ j, Function.update α i t j = t + (∑ j, α j - α i) := by
    intro t
    rw [Finset.sum_update_of_mem (Finset.mem_univ i), ← Finset.sum_sdiff (Finset.subset_univ {i}), Finset.sum_singleton]
    ring
  have hone : ∀ x : Fin k → ℝ, HasDerivAt (fun t => lnpdf (Function.update α i t) x) (log (x i) + psi (∑ j, α j) - psi (α i)) (α i) := by
    intro x
    unfold lnpdf
    have h1 : HasDerivAt (fun t => ∑ j, (Function.update α i t j - 1) * log (x j)) (log (x i)) (α i) := by
      have e : ∀ t, ∑ j, (Function.update α i t j - 1) * log (x j) = (t - 1) * log (x i) + ∑ j ∈ Finset.univ \ {i}, (α j - 1) * log (x j) := by
        intro t
        rw [← Finset.sum_sdiff (Finset.subset_univ {i}), Finset.sum_singleton, Function.update_self, add_comm]
        congr 1
        apply Finset.sum_congr rfl
        intro j hj
        rw [Function.update_of_ne (by simpa using hj)]
      simp only [e]
      have := (((hasDerivAt_id (α i)).sub_const 1).mul_const (log (x i))).add_const (∑ j ∈ Finset.univ \ {i}, (α j - 1) * log (x j))
      simpa using this
    have h2 : HasDerivAt (fun t => log (Gamma (∑ j, Function.update α i t j))) (psi (∑ j, α j)) (α i) := by
      simp only [hsum]
      have := hasDerivAt_lnGamma (sum_pos' hα)
      have e : ∑ j, α j = α i + (∑ j, α j - α i) := by ring
      rw [e] at this
      have := this.comp_add_const (α i) (∑ j, α j - α i)
      rw [← e] at this
      exact this
    have h3 : HasDerivAt (fun t => ∑ j, log (Gamma (Function.update α i t j))) (psi (α i)) (α i) := by
      have e : ∀ t, ∑ j, log (Gamma (Function.update α i t j)) = log (Gamma t) + ∑ j ∈ Finset.univ \ {i}, log (Gamma (α j)) := by
        intro t
        rw [← Finset.sum_sdiff (Finset.subset_univ {i}), Finset.sum_singleton, Function.update_self, add_comm]
        congr 1
        apply Finset.sum_congr rfl
        intro j hj
        rw [Function.update_of_ne (by simpa using hj)]
      simp only [e]
      exact (hasDerivAt_lnGamma (hα i)).add_const _
    exact (h1.add h2).sub h3
  have : score α rows i = (rows.map fun x => log (x i) + psi (∑ j, α j) - psi (α i)).sum := by
    unfold score
    induction rows with
    | nil => simp
    | cons x l ih => simp only [List.map_cons, List.sum_cons, List.length_cons, ← ih]; push_cast; ring
  rw [this]
  clear this
  induction rows with
  | nil => simpa using hasDerivAt_const (α i) (0 : ℝ)
  | cons x l ih =>
    simp only [List.map_cons, List.sum_cons]
    exact (hone x).add ih

/-- C143: each element of the score is the partial derivative of the log likelihood. -/
theorem C143_score [NeZero k] (α : Fin k → ℝ) (hα : ∀ i, 0 < α i) (hs : 1 / 100000 < ∑ i, α i) (rows : List (Fin k → ℝ)) (i : Fin k) :
    HasDerivAt (fun t => ((ll (Function.update α i t) rows).num).getD 0) (score α rows i) (α i) := by
  refine (score_aux α hα rows i).congr_of_eventuallyEq ?_
  have hc : Continuous fun t => ∑ j, Function.update α i t j := by
    apply continuous_finset_sum
    intro j _
    exact (continuous_apply (A := fun _ : Fin k => ℝ) j).comp ((continuous_const (y := α)).update i continuous_id)
  have : ∀ᶠ t in nhds (α i), 1 / 100000 < ∑ j, Function.update α i t j := by
    apply hc.continuousAt.eventually_const_lt
    simpa using hs
  filter_upwards [this] with t ht
  rw [ll, if_neg (by rw [abs_of_pos (by linarith)]; linarith)]
  rfl

example : HasDerivAt (fun t => ((ll (Function.update (fun _ : Fin 2 => (1 : ℝ)) 0 t) [fun _ => 1 / 2]).num).getD 0) (score (k := 2) (fun _ => 1) [fun _ => 1 / 2] 0) 1 :=
  C143_score (fun _ => 1) (by simp) (by simp [Fin.sum_univ_two]; norm_num) _ 0

/-- C143: with two columns it is the beta distribution: for a row x, 1−x it's the Beta density at x. -/
theorem C143_beta (a b : ℝ) (x : ℝ) (h0 : 0 < x) (h1 : x < 1) :
    pdf ![a, b] ![x, 1 - x] = ProbabilityTheory.betaPDFReal a b x := by
  unfold pdf ProbabilityTheory.betaPDFReal ProbabilityTheory.beta
  rw [if_pos ⟨h0, h1⟩]
  simp [Fin.sum_univ_two, Fin.prod_univ_two]
  ring

/-- C143: parameters whose total is within 1/100000 of zero give NaN. -/
theorem C143_tiny (α : Fin k → ℝ) (h : |∑ i, α i| < 1 / 100000) (rows : List (Fin k → ℝ)) : ll α rows = .nan := by rw [ll, if_pos h]

/-- C143 (refuted): that a row which is not made of shares is given likelihood zero: it counts in full, whatever its total. -/
theorem C143_not_shares_refuted : ∃ (α : Fin 2 → ℝ) (x : Fin 2 → ℝ), (∀ i, 0 < α i) ∧ (∑ i, x i) ≠ 1 ∧ ll α [x] = .val 0 := by
  refine ⟨fun _ => 1, fun _ => 3, by simp, by simp; norm_num, ?_⟩
  rw [ll, if_neg (by simp; norm_num)]
  simp [lnpdf, Fin.sum_univ_two]

/-- C143 (refuted): that parameters outside the model's range are noticed: only their total is looked at. -/
theorem C143_negative_refuted : ∃ (α : Fin 2 → ℝ) (x : Fin 2 → ℝ) (v : ℝ), α 0 < 0 ∧ (∀ i, 0 < x i) ∧ ∑ i, x i = 1 ∧ ll α [x] = .val v := by
  refine ⟨![-1 / 2, 2], fun _ => 1 / 2, lnpdf ![-1 / 2, 2] fun _ => 1 / 2, by simp; norm_num, by simp, by simp, ?_⟩
  rw [ll, if_neg]
  · simp
  · simp [Fin.sum_univ_two]
    rw [abs_of_pos] <;> norm_num

/-- The flat density on the triangle. -/
example : ll (k := 3) (fun _ => 1) [fun _ => 1 / 3] = .val (log 2) := by
  rw [C143_ll _ (by simp) (by simp; norm_num) _ (by simp)]
  have : Gamma 3 = 2 := by rw [show (3 : ℝ) = ((2 : ℕ) : ℝ) + 1 by norm_num, Gamma_nat_eq_factorial]; norm_num [Nat.factorial]
  simp [pdf, this]

end Apop.Density.Dirichlet
