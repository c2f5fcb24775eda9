import Verif.Dist.Base
import Mathlib.Probability.Distributions.Gaussian.Real
import Mathlib.Probability.Distributions.Exponential
import Mathlib.Probability.Distributions.Gamma
import Mathlib.Probability.Distributions.Beta
import Mathlib.Analysis.PSeries

/-! # C74: the log likelihoods of the stock distributions

The GSL's special functions are taken by their documentation: `gsl_sf_lngamma` is the log of the gamma function, `gsl_sf_lnbeta` the log of the beta function, `gsl_sf_zeta` the sum of 1/k^s. -/

namespace Apop.Dist
open Real

/-! ## The models -/

/-- `normal_log_likelihood`, model/apop_normal.c:42-51. -/
noncomputable def normalLl (mu sd : ℝ) (d : D) : ℝ :=
  -(d.mapSum fun x => (x - mu) ^ 2) / (2 * sd ^ 2) - d.tsize * ((log π + log 2) / 2 + log sd)

/-- `lognormal_log_likelihood`, model/apop_normal.c:172-182. -/
noncomputable def lognormalLl (mu sd : ℝ) (d : D) : ℝ :=
  -(d.mapSum fun x => (log x - mu) ^ 2) / (2 * sd ^ 2) - d.mapSum log - d.tsize * ((log π + log 2) / 2 + log sd)

/-- `exponential_log_likelihood`, model/apop_exponential.c:33-40. -/
noncomputable def expoLl (mu : ℝ) (d : D) : ℝ := -d.total / mu - d.tsize * log mu

/-- `apply_for_gamma`, model/apop_gamma.c:33-36. -/
noncomputable def gammaApply (a b lnGaPlusALnB x : ℝ) : ℝ := if x ≠ 0 then (a - 1) * log x - x / b - lnGaPlusALnB else 0

/-- `gamma_log_likelihood`, model/apop_gamma.c:38-50. -/
noncomputable def gammaLl (a b : ℝ) (d : D) : ℝ := d.mapSum (gammaApply a b (log (Gamma a) + a * log b))

/-- `betamap`, model/apop_beta.c:47-51. -/
noncomputable def betaMap (a b x : ℝ) : ℝ := if x < 0 ∨ x > 1 then 0 else (a - 1) * log x + (b - 1) * log (1 - x)

/-- `beta_log_likelihood`, model/apop_beta.c:57-63. -/
noncomputable def betaLl (a b : ℝ) (d : D) : ℝ := d.mapSum (betaMap a b) - log (ProbabilityTheory.beta a b) * d.tsize

/-- `bernie_ll`, model/apop_bernoulli.c:13-16. -/
noncomputable def bernieLl (p x : ℝ) : ℝ := if x ≠ 0 then log p else log (1 - p)

/-- `bernoulli_log_likelihood`, model/apop_bernoulli.c:18-22. -/
noncomputable def bernoulliLl (p : ℝ) (d : D) : ℝ := d.mapSum (bernieLl p)

/-- `apply_me`, model/apop_poisson.c:13-18: `none` is minus infinity. -/
noncomputable def poissonApply (lnL x : ℝ) : Option ℝ :=
  if x < 0 then none
  else if 1 / 10000 < x - ⌊x⌋ then none
  else some (if x = 0 then 0 else lnL * x - log (Gamma (x + 1)))

/-- A sum of numbers, one of which may be minus infinity: then so is the sum. -/
noncomputable def optSum : List (Option ℝ) → Option ℝ
  | [] => some 0
  | o :: os => do some ((← o) + (← optSum os))

/-- `poisson_log_likelihood`, model/apop_poisson.c:20-27; the sum is over all elements. -/
noncomputable def poissonLl (lam : ℝ) (d : D) : Option ℝ := (optSum (d.cells.map (poissonApply (log lam)))).map fun ll => ll - d.tsize * lam

/-- `gsl_sf_zeta` (GSL). -/
noncomputable def zeta (s : ℝ) : ℝ := ∑' n : ℕ, 1 / ((n : ℝ) + 1) ^ s

/-- `zipf_log_likelihood`, model/apop_zipf.c:32-41, for a parameter of at least one. -/
noncomputable def zipfLl (bb : ℝ) (d : D) : ℝ := -(d.mapSum log) * bb - log (zeta bb) * d.tsize

/-- `apply_me`, model/apop_yule.c:31-37. -/
noncomputable def yuleApply (bb pt : ℝ) : ℝ := (if pt ≥ 1 then log (Gamma pt) else 0) - log (Gamma (pt + bb))

/-- `yule_log_likelihood`, model/apop_yule.c:41-49. -/
noncomputable def yuleLl (bb : ℝ) (d : D) : ℝ := d.mapSum (yuleApply bb) + (log (bb - 1) + log (Gamma bb)) * d.tsize

/-- `one_t` and `apop_tdist_llike`, model/apop_t.c:25-38; `pdf` is `gsl_ran_tdist_pdf` for the model's degrees of freedom. -/
noncomputable def tLl (pdf : ℝ → ℝ) (mu sigma : ℝ) (d : D) : ℝ := d.mapSum (fun x => log (pdf ((x - mu) / sigma))) - d.tsize * log sigma

/-- The smallest and the largest element, `getminmax`, model/apop_uniform.c:18-24: `none` without data (infinity). -/
noncomputable def minmax (d : D) : Option (ℝ × ℝ) :=
  match d.cells with
  | [] => none
  | x :: l => some (l.foldl min x, l.foldl max x)

/-- `unif_ll`, model/apop_uniform.c:26-34: outer `none` is minus infinity. Without data, infinity is at least `a` and minus infinity at most `b`. -/
noncomputable def unifLl (a b : ℝ) (d : D) : Option ℝ :=
  match minmax d with
  | none => some (-log (b - a) * d.tsize)
  | some (mn, mx) => if mn ≥ a ∧ mx ≤ b then some (-log (b - a) * d.tsize) else none

/-- `unif_p`, model/apop_uniform.c:36-44. -/
noncomputable def unifP (a b : ℝ) (d : D) : ℝ :=
  match minmax d with
  | none => (b - a) ^ (-(d.tsize : ℤ))
  | some (mn, mx) => if mn ≥ a ∧ mx ≤ b then (b - a) ^ (-(d.tsize : ℤ)) else 0

/-! ## Specification -/

/-- The likelihood of independent observations: the product of their densities. -/
noncomputable def likelihood (density : ℝ → ℝ) (d : D) : ℝ := (d.cells.map density).prod

/-- The density of the lognormal (the documentation of `apop_lognormal`). -/
noncomputable def lognormalPdf (mu sd x : ℝ) : ℝ := exp (-(log x - mu) ^ 2 / (2 * sd ^ 2)) / (x * sd * √(2 * π))

/-- The Yule distribution (the documentation of `apop_yule`). -/
noncomputable def yulePmf (b k : ℝ) : ℝ := (b - 1) * Gamma b * Gamma k / Gamma (k + b)

/-! ## Proofs -/

theorem lnpi : (log π + log 2) / 2 = log √(2 * π) := by
  rw [log_sqrt (by positivity), log_mul (by norm_num) pi_ne_zero]; ring

/-- From a sum of terms to the log of the product of densities. -/
theorem likelihood_of {f g : ℝ → ℝ} {c : ℝ} {d : D} (hw : d.WF) (hpos : ∀ x ∈ d.cells, 0 < g x) (h : ∀ x ∈ d.cells, f x + c = log (g x)) :
    d.mapSum f + d.tsize * c = log (likelihood g d) := by
  rw [likelihood, log_prod_map hpos, mapSum_eq, tsize_eq hw, ← sum_map_const, ← sum_map_add']
  exact sum_map_congr h

/-- **C74 (normal).** The log likelihood is the log of the product of Gaussian densities, over all elements of vector and matrix. -/
theorem C74_normal (mu sd : ℝ) (hsd : 0 < sd) (d : D) (hw : d.WF) :
    normalLl mu sd d = log (likelihood (ProbabilityTheory.gaussianPDFReal mu (sd ^ 2).toNNReal) d) := by
  have key := likelihood_of (f := fun x => -(1 / (2 * sd ^ 2)) * (x - mu) ^ 2) (g := ProbabilityTheory.gaussianPDFReal mu (sd ^ 2).toNNReal)
    (c := -((log π + log 2) / 2 + log sd)) hw (fun x _ => ProbabilityTheory.gaussianPDFReal_pos _ _ _ (by simp [hsd.ne'])) (by
      intro x _
      rw [ProbabilityTheory.gaussianPDFReal_def]
      simp only
      rw [coe_toNNReal _ (by positivity : (0 : ℝ) ≤ sd ^ 2), log_mul (by positivity) (exp_pos _).ne', log_exp, log_inv, lnpi, sqrt_mul (x := 2 * π) (by positivity) (sd ^ 2), sqrt_sq hsd.le,
        log_mul (by positivity) hsd.ne']
      field_simp
      ring)
  rw [← key, normalLl, mapSum_eq, mapSum_eq, sum_map_mul']
  ring

/-- **C74 (lognormal).** For positive data. -/
theorem C74_lognormal (mu sd : ℝ) (hsd : 0 < sd) (d : D) (hw : d.WF) (hx : ∀ x ∈ d.cells, 0 < x) :
    lognormalLl mu sd d = log (likelihood (lognormalPdf mu sd) d) := by
  have key := likelihood_of (f := fun x => -(1 / (2 * sd ^ 2)) * (log x - mu) ^ 2 + (-1) * log x) (g := lognormalPdf mu sd) (c := -((log π + log 2) / 2 + log sd)) hw
    (fun x h => by have := hx x h; unfold lognormalPdf; positivity) (by
      intro x h
      have h0 := hx x h
      rw [lognormalPdf, log_div (exp_pos _).ne' (by positivity), log_exp, lnpi, log_mul (by positivity) (by positivity), log_mul h0.ne' hsd.ne']
      field_simp
      ring)
  rw [← key, lognormalLl, mapSum_eq, mapSum_eq, mapSum_eq, sum_map_add', sum_map_mul', sum_map_mul']
  ring

/-- **C74 (exponential).** For data that is not negative; the model's parameter is the mean, one over the rate. -/
theorem C74_exponential (mu : ℝ) (hmu : 0 < mu) (d : D) (hw : d.WF) (hx : ∀ x ∈ d.cells, 0 ≤ x) :
    expoLl mu d = log (likelihood (ProbabilityTheory.exponentialPDFReal (1 / mu)) d) := by
  have e : ∀ x, 0 ≤ x → ProbabilityTheory.exponentialPDFReal (1 / mu) x = 1 / mu * exp (-(1 / mu * x)) := by
    intro x h
    simp [ProbabilityTheory.exponentialPDFReal, ProbabilityTheory.gammaPDFReal, h]
  have key := likelihood_of (f := fun x => -(1 / mu) * id x) (g := ProbabilityTheory.exponentialPDFReal (1 / mu)) (c := -log mu) hw
    (fun x h => by rw [e x (hx x h)]; positivity) (by
      intro x h
      rw [e x (hx x h), log_mul (by positivity) (exp_pos _).ne', log_exp, log_div one_ne_zero hmu.ne', log_one]
      simp only [id]
      ring)
  rw [← key, expoLl, total_eq, mapSum_eq, sum_map_mul', List.map_id]
  ring

/-- **C74 (gamma).** For positive data; the scale parameter is one over the rate. -/
theorem C74_gamma (a b : ℝ) (ha : 0 < a) (hb : 0 < b) (d : D) (hw : d.WF) (hx : ∀ x ∈ d.cells, 0 < x) :
    gammaLl a b d = log (likelihood (ProbabilityTheory.gammaPDFReal a (1 / b)) d) := by
  have hG := Gamma_pos_of_pos ha
  have e : ∀ x, 0 < x → ProbabilityTheory.gammaPDFReal a (1 / b) x = (1 / b) ^ a / Gamma a * x ^ (a - 1) * exp (-(1 / b * x)) := by
    intro x h
    simp [ProbabilityTheory.gammaPDFReal, h.le]
  have key := likelihood_of (f := gammaApply a b (log (Gamma a) + a * log b)) (g := ProbabilityTheory.gammaPDFReal a (1 / b)) (c := 0) hw
    (fun x h => by have := hx x h; rw [e x this]; positivity) (by
      intro x h
      have h0 := hx x h
      rw [e x h0, log_mul (by positivity) (exp_pos _).ne', log_mul (by positivity) (by positivity), log_div (by positivity) hG.ne', log_exp, log_rpow h0, log_rpow (by positivity),
        log_div one_ne_zero hb.ne', log_one, gammaApply, if_pos h0.ne']
      ring)
  rw [← key, gammaLl]
  ring

/-- **C74 (beta).** For data strictly between zero and one. -/
theorem C74_beta (a b : ℝ) (ha : 0 < a) (hb : 0 < b) (d : D) (hw : d.WF) (hx : ∀ x ∈ d.cells, 0 < x ∧ x < 1) :
    betaLl a b d = log (likelihood (ProbabilityTheory.betaPDFReal a b) d) := by
  have hB := ProbabilityTheory.beta_pos ha hb
  have key := likelihood_of (f := betaMap a b) (g := ProbabilityTheory.betaPDFReal a b) (c := -log (ProbabilityTheory.beta a b)) hw
    (fun x h => by
      have h0 := hx x h
      have : 0 < 1 - x := by linarith [h0.2]
      have := h0.1
      rw [ProbabilityTheory.betaPDFReal, if_pos h0]; positivity) (by
      intro x h
      have h0 := hx x h
      have h1 : 0 < 1 - x := by linarith [h0.2]
      have h2 := h0.1
      rw [ProbabilityTheory.betaPDFReal, if_pos h0, log_mul (by positivity) (by positivity), log_mul (by positivity) (by positivity), log_rpow h2, log_rpow h1,
        log_div one_ne_zero hB.ne', log_one, betaMap, if_neg (by push Not; exact ⟨h2.le, h0.2.le⟩)]
      ring)
  rw [← key, betaLl]
  ring

/-- **C74 (Bernoulli).** Nonzero elements are hits. -/
theorem C74_bernoulli (p : ℝ) (h0 : 0 < p) (h1 : p < 1) (d : D) (hw : d.WF) :
    bernoulliLl p d = log (likelihood (fun x => if x = 0 then 1 - p else p) d) := by
  have h2 : 0 < 1 - p := by linarith
  have key := likelihood_of (f := bernieLl p) (g := fun x => if x = 0 then 1 - p else p) (c := 0) hw (fun x _ => by split <;> assumption) (by
    intro x _
    by_cases h : x = 0 <;> simp [bernieLl, h])
  rw [← key, bernoulliLl]
  ring

theorem optSum_some {f : ℝ → Option ℝ} {g : ℝ → ℝ} : ∀ {l : List ℝ}, (∀ x ∈ l, f x = some (g x)) → optSum (l.map f) = some (l.map g).sum
  | [], _ => rfl
  | x :: l, h => by
    have ih := optSum_some (f := f) (g := g) (l := l) fun y hy => h y (by simp [hy])
    simp only [List.map_cons, optSum, h x (by simp), ih]
    rfl

theorem optSum_none {f : ℝ → Option ℝ} : ∀ {l : List ℝ}, (∃ x ∈ l, f x = none) → optSum (l.map f) = none
  | [], h => by obtain ⟨x, h, -⟩ := h; simp at h
  | y :: l, h => by
    obtain ⟨x, hx, hf⟩ := h
    rcases List.mem_cons.1 hx with rfl | hx
    · simp only [List.map_cons, optSum, hf]; rfl
    · simp only [List.map_cons, optSum, optSum_none ⟨x, hx, hf⟩]; cases f y <;> rfl

/-- **C74 (Poisson).** For counts. -/
theorem C74_poisson (lam : ℝ) (hl : 0 < lam) (d : D) (hw : d.WF) (ns : List ℕ) (hn : d.cells = ns.map Nat.cast) :
    poissonLl lam d = some (log ((ns.map fun n => exp (-lam) * lam ^ n / n.factorial).prod)) := by
  have e : ∀ n : ℕ, poissonApply (log lam) n = some (log (lam ^ n / n.factorial)) := by
    intro n
    have hf : (0 : ℝ) < n.factorial := by exact_mod_cast n.factorial_pos
    rw [poissonApply, if_neg (by push Not; exact Nat.cast_nonneg n), if_neg (by simp), log_div (by positivity) hf.ne', log_pow, Gamma_nat_eq_factorial]
    by_cases h : n = 0
    · simp [h]
    · rw [if_neg (by exact_mod_cast h)]; congr 1; ring
  have e2 : ∀ l : List ℕ, optSum ((l.map (Nat.cast : ℕ → ℝ)).map (poissonApply (log lam))) = some ((l.map fun n => log (lam ^ n / n.factorial)).sum) := by
    intro l
    induction l with
    | nil => rfl
    | cons n l ih => simp only [List.map_cons, optSum, e, ih]; rfl
  have e3 : ∀ l : List ℕ, log ((l.map fun n => exp (-lam) * lam ^ n / n.factorial).prod) = (l.map fun n => log (lam ^ n / n.factorial)).sum - l.length * lam := by
    intro l
    induction l with
    | nil => simp
    | cons n l ih =>
      have hf : (0 : ℝ) < n.factorial := by exact_mod_cast n.factorial_pos
      have hp : 0 < (l.map fun n : ℕ => exp (-lam) * lam ^ n / n.factorial).prod := by
        apply List.prod_pos
        intro a ha
        obtain ⟨m, -, rfl⟩ := List.mem_map.1 ha
        positivity
      simp only [List.map_cons, List.prod_cons, List.sum_cons, List.length_cons]
      rw [log_mul (by positivity) hp.ne', ih, mul_div_assoc, log_mul (exp_pos _).ne' (by positivity), log_exp]
      push_cast
      ring
  rw [poissonLl, hn, e2, e3, tsize_eq hw, hn, List.length_map]
  rfl

/-- **C74 (Poisson, no counts).** With a negative number, or one that is over a ten-thousandth above an integer, the log likelihood is minus infinity. -/
theorem C74_poisson_outside (lam : ℝ) (d : D) (x : ℝ) (hx : x ∈ d.cells) (h : x < 0 ∨ 1 / 10000 < x - ⌊x⌋) : poissonLl lam d = none := by
  rw [poissonLl, optSum_none ⟨x, hx, ?_⟩]; · rfl
  unfold poissonApply
  rcases h with h | h
  · rw [if_pos h]
  · split
    · rfl
    · rfl

theorem zeta_pos {s : ℝ} (h : 1 < s) : 0 < zeta s := by
  have hs : Summable fun n : ℕ => 1 / ((n : ℝ) + 1) ^ s := by
    have := (summable_nat_add_iff (f := fun n : ℕ => 1 / (n : ℝ) ^ s) 1).2 (Real.summable_one_div_nat_rpow.2 h)
    simpa using this
  exact hs.tsum_pos (fun n => by positivity) 0 (by simp)

/-- **C74 (Zipf).** For positive data and a parameter above one. -/
theorem C74_zipf (bb : ℝ) (hb : 1 < bb) (d : D) (hw : d.WF) (hx : ∀ x ∈ d.cells, 0 < x) :
    zipfLl bb d = log (likelihood (fun x => 1 / (zeta bb * x ^ bb)) d) := by
  have hz := zeta_pos hb
  have key := likelihood_of (f := fun x => -bb * log x) (g := fun x => 1 / (zeta bb * x ^ bb)) (c := -log (zeta bb)) hw
    (fun x h => by have := hx x h; positivity) (by
      intro x h
      have h0 := hx x h
      rw [log_div one_ne_zero (by positivity), log_one, log_mul hz.ne' (by positivity), log_rpow h0]
      ring)
  rw [← key, zipfLl, mapSum_eq, mapSum_eq, sum_map_mul']
  ring

/-- **C74 (Yule).** For data of at least one and a parameter above one. -/
theorem C74_yule (bb : ℝ) (hb : 1 < bb) (d : D) (hw : d.WF) (hx : ∀ x ∈ d.cells, 1 ≤ x) : yuleLl bb d = log (likelihood (yulePmf bb) d) := by
  have g1 : 0 < Gamma bb := Gamma_pos_of_pos (by linarith)
  have b1 : 0 < bb - 1 := by linarith
  have key := likelihood_of (f := yuleApply bb) (g := yulePmf bb) (c := log (bb - 1) + log (Gamma bb)) hw
    (fun x h => by
      have h1 := hx x h
      have := Gamma_pos_of_pos (show 0 < x by linarith)
      have := Gamma_pos_of_pos (show 0 < x + bb by linarith)
      unfold yulePmf; positivity) (by
      intro x h
      have h1 := hx x h
      have g2 := Gamma_pos_of_pos (show 0 < x by linarith)
      have g3 := Gamma_pos_of_pos (show 0 < x + bb by linarith)
      rw [yulePmf, log_div (by positivity) g3.ne', log_mul (by positivity) g2.ne', log_mul b1.ne' g1.ne', yuleApply, if_pos h1]
      ring)
  rw [← key, yuleLl]
  ring

/-- **C74 (t).** Whatever the positive density: that of the distribution moved to `mu` and scaled by `sigma`. -/
theorem C74_t (pdf : ℝ → ℝ) (hpdf : ∀ x, 0 < pdf x) (mu sigma : ℝ) (hs : 0 < sigma) (d : D) (hw : d.WF) :
    tLl pdf mu sigma d = log (likelihood (fun x => pdf ((x - mu) / sigma) / sigma) d) := by
  have key := likelihood_of (f := fun x => log (pdf ((x - mu) / sigma))) (g := fun x => pdf ((x - mu) / sigma) / sigma) (c := -log sigma) hw
    (fun x _ => div_pos (hpdf _) hs) (by
      intro x _
      rw [log_div (hpdf _).ne' hs.ne']
      ring)
  rw [← key, tLl]
  ring

theorem foldl_min_le : ∀ (l : List ℝ) (x a : ℝ), a ≤ l.foldl min x ↔ a ≤ x ∧ ∀ y ∈ l, a ≤ y
  | [], x, a => by simp
  | y :: l, x, a => by
    rw [List.foldl_cons, foldl_min_le l]
    simp only [le_inf_iff, List.mem_cons, forall_eq_or_imp, and_assoc]

theorem le_foldl_max : ∀ (l : List ℝ) (x a : ℝ), l.foldl max x ≤ a ↔ x ≤ a ∧ ∀ y ∈ l, y ≤ a
  | [], x, a => by simp
  | y :: l, x, a => by
    rw [List.foldl_cons, le_foldl_max l]
    simp only [sup_le_iff, List.mem_cons, forall_eq_or_imp, and_assoc]

/-- The density of the uniform on [a, b]. -/
noncomputable def unifPdf (a b x : ℝ) : ℝ := by classical exact if a ≤ x ∧ x ≤ b then 1 / (b - a) else 0

theorem minmax_iff (a b : ℝ) (d : D) : (match minmax d with | none => True | some (mn, mx) => mn ≥ a ∧ mx ≤ b) ↔ ∀ x ∈ d.cells, a ≤ x ∧ x ≤ b := by
  unfold minmax
  cases d.cells with
  | nil => simp
  | cons x l =>
    simp only [ge_iff_le, foldl_min_le, le_foldl_max, List.mem_cons, forall_eq_or_imp]
    constructor
    · rintro ⟨⟨h1, h2⟩, h3, h4⟩; exact ⟨⟨h1, h3⟩, fun y hy => ⟨h2 y hy, h4 y hy⟩⟩
    · rintro ⟨⟨h1, h2⟩, h3⟩; exact ⟨⟨h1, fun y hy => (h3 y hy).1⟩, h2, fun y hy => (h3 y hy).2⟩

/-- **C74 (uniform).** `p` is the product of the densities, and the log likelihood is its log: minus infinity if some element is outside. -/
theorem C74_uniform (a b : ℝ) (hab : a < b) (d : D) (hw : d.WF) :
    unifP a b d = likelihood (unifPdf a b) d ∧
    ((∀ x ∈ d.cells, a ≤ x ∧ x ≤ b) → unifLl a b d = some (log (likelihood (unifPdf a b) d))) ∧
    ((∃ x ∈ d.cells, ¬ (a ≤ x ∧ x ≤ b)) → unifLl a b d = none ∧ likelihood (unifPdf a b) d = 0) := by
  have hba : 0 < b - a := by linarith
  have hall : (∀ x ∈ d.cells, a ≤ x ∧ x ≤ b) → likelihood (unifPdf a b) d = (b - a) ^ (-(d.tsize : ℤ)) := by
    intro h
    have : d.cells.map (unifPdf a b) = d.cells.map fun _ => 1 / (b - a) := List.map_congr_left (fun x hx => by simp only [unifPdf, if_pos (h x hx)])
    rw [likelihood, this, List.map_const', List.prod_replicate, tsize_eq hw, zpow_neg, zpow_natCast, one_div, inv_pow]
  have hsome : (∃ x ∈ d.cells, ¬ (a ≤ x ∧ x ≤ b)) → likelihood (unifPdf a b) d = 0 := by
    rintro ⟨x, hx, h⟩
    rw [likelihood]
    apply List.prod_eq_zero
    rw [List.mem_map]
    exact ⟨x, hx, by simp only [unifPdf, if_neg h]⟩
  have hmm := minmax_iff a b d
  refine ⟨?_, ?_, ?_⟩
  · by_cases h : ∀ x ∈ d.cells, a ≤ x ∧ x ≤ b
    · rw [hall h]
      have := hmm.2 h
      unfold unifP
      split at this
      · rfl
      · rw [if_pos this]
    · rw [hsome (by push Not at h ⊢; exact h)]
      have := mt hmm.1 h
      unfold unifP
      split at this
      · exact absurd trivial this
      · rw [if_neg this]
  · intro h
    rw [hall h, log_zpow]
    have := hmm.2 h
    have e2 : ((-(d.tsize : ℤ) : ℤ) : ℝ) * log (b - a) = -log (b - a) * d.tsize := by push_cast; ring
    rw [e2]
    unfold unifLl
    split at this
    · rfl
    · rw [if_pos this]
  · intro h
    refine ⟨?_, hsome h⟩
    have := mt hmm.1 (by push Not at h ⊢; exact h)
    unfold unifLl
    split at this
    · exact absurd trivial this
    · rw [if_neg this]

/-- **C74 (arrangement).** The likelihood depends on the numbers only, not on whether they are in the vector or the matrix, nor on their order. -/
theorem C74_arrangement (density : ℝ → ℝ) (d d' : D) (h : d.cells.Perm d'.cells) : likelihood density d = likelihood density d' := (h.map density).prod_eq

/-- The hypotheses are met by data with both parts. -/
example : ∃ d : D, d.WF ∧ d.cells = [1 / 2, 1 / 3, 1 / 4, 1 / 5, 1 / 6] ∧ ∀ x ∈ d.cells, 0 < x ∧ x < 1 := by
  refine ⟨⟨some [1 / 2], some ⟨[[1 / 3, 1 / 4], [1 / 5, 1 / 6]], 2⟩⟩, ?_, ?_, ?_⟩
  · intro m hm; simp only [Option.some.injEq] at hm; subst hm; simp [Mat.WF]
  · simp [D.cells]
  · simp [D.cells]; norm_num

/-! ### Outside the support -/

/-- Beta: a number outside [0, 1] has density zero, but to the log likelihood it contributes as if its density were 1/B(a, b), here 6. -/
theorem C74_beta_outside_refuted : betaLl 2 2 ⟨some [7], none⟩ = log 6 ∧ ProbabilityTheory.betaPDFReal 2 2 7 = 0 := by
  constructor
  · have g2 : Gamma 2 = 1 := by norm_num
    have g4 : Gamma 4 = 6 := by norm_num [Nat.factorial]
    have hb : ProbabilityTheory.beta 2 2 = 1 / 6 := by rw [ProbabilityTheory.beta, g2, show (2 : ℝ) + 2 = 4 by norm_num, g4]; norm_num
    simp only [betaLl, mapSum_eq, D.cells, D.tsize, D.vsize, D.msize1, D.msize2, hb]
    rw [log_div one_ne_zero (by norm_num), log_one]
    norm_num [betaMap]
  · simp [ProbabilityTheory.betaPDFReal]

/-- Gamma: a zero is left out altogether, whatever the parameters, rather than given its density (here, with a = 1, the density at zero is 1/b = 1/2). -/
theorem C74_gamma_zero_refuted : gammaLl 1 2 ⟨some [0], none⟩ = 0 ∧ ProbabilityTheory.gammaPDFReal 1 (1 / 2) 0 = 1 / 2 := by
  constructor
  · simp [gammaLl, mapSum_eq, D.cells, gammaApply]
  · simp [ProbabilityTheory.gammaPDFReal]

/-- Exponential: a negative number has density zero, but is given a log likelihood, and a higher one than any in the support. -/
theorem C74_exponential_negative_refuted : expoLl 1 ⟨some [-5], none⟩ = 5 ∧ ProbabilityTheory.exponentialPDFReal 1 (-5) = 0 := by
  constructor
  · simp [expoLl, total_eq, D.cells]
  · simp [ProbabilityTheory.exponentialPDFReal, ProbabilityTheory.gammaPDFReal]

end Apop.Dist
