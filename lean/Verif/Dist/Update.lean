import Verif.Dist.Estimate

/-! # C77: the table of conjugate updates

`apop_update` with a pair of models in its table gives a posterior in closed form. -/

namespace Apop.Dist
open Real ProbabilityTheory

/-! ## The models: each takes the prior's parameters to the posterior's -/

/-- `betabinom`, apop_update.m4.c:45-60, with data: hits are in column one, misses in column zero. A matrix of fewer columns is outside the model. -/
noncomputable def betaBinom (ab : ℝ × ℝ) (m : Mat ℝ) : Res (ℝ × ℝ) :=
  if m.cols < 2 then .ub
  else .ok (ab.1 + Stats.vectorSum (m.rows.map fun r => r.getD 1 0), ab.2 + Stats.vectorSum (m.rows.map fun r => r.getD 0 0))

/-- `betabinom`, lines 47-51: without data, the likelihood's own parameters n and p. -/
def betaBinomNoData (ab : ℝ × ℝ) (n p : ℝ) : ℝ × ℝ := (ab.1 + n * p, ab.2 + n * (1 - p))

/-- `countup`, apop_update.m4.c:62. -/
noncomputable def countup (x : ℝ) : ℝ := if x ≠ 0 then 1 else 0

/-- `betabernie`, apop_update.m4.c:64-71. -/
noncomputable def betaBernie (ab : ℝ × ℝ) (d : D) : ℝ × ℝ := (ab.1 + d.mapSum countup, ab.2 + (d.tsize - d.mapSum countup))

/-- `gammaexpo`, apop_update.m4.c:73-82: shape and scale. -/
noncomputable def gammaExpo (kt : ℝ × ℝ) (d : D) : ℝ × ℝ := (kt.1 + d.maxsize, 1 / (1 / kt.2 + d.total))

/-- `gammapoisson`, apop_update.m4.c:84-95. -/
noncomputable def gammaPoisson (kt : ℝ × ℝ) (d : D) : ℝ × ℝ := (kt.1 + d.total, kt.2 / (kt.2 * d.maxsize + 1))

/-- `normnorm`, apop_update.m4.c:113-114: the last two lines, for `n` observations of the given mean and variance. -/
noncomputable def normNormCore (ms : ℝ × ℝ) (n muLike varLike : ℝ) : ℝ × ℝ :=
  ((ms.1 / ms.2 ^ 2 + n * muLike / varLike) / (1 / ms.2 ^ 2 + n / varLike), (1 / ms.2 ^ 2 + n / varLike) ^ (-(1 / 2) : ℝ))

/-- `normnorm`, apop_update.m4.c:97-116, with data, which must have a matrix (line 110). -/
noncomputable def normNorm (ms : ℝ × ℝ) (d : D) : Res (ℝ × ℝ) :=
  match d.mat with
  | none => .ub
  | some m => .ok (normNormCore ms (m.size1 * m.cols) (Stats.matrixMeanVar m.rows).1 (Stats.matrixMeanVar m.rows).2)

/-- `normnorm`, lines 105-108: without data. -/
noncomputable def normNormNoData (ms : ℝ × ℝ) (mu sd : ℝ) : ℝ × ℝ := normNormCore ms 1 mu (sd ^ 2)

/-! ## Specification: Bayes' rule -/

/-- `post` is the posterior of `prior` with the likelihood `like`, up to the normalising constant, over the parameters in `dom`. -/
def Bayes (dom : Set ℝ) (prior like post : ℝ → ℝ) : Prop := ∃ c : ℝ, 0 < c ∧ ∀ θ ∈ dom, prior θ * like θ = c * post θ

/-- The probability of a number of hits and misses with the chance `θ` of a hit. -/
noncomputable def binomialPmf (θ : ℝ) (misses hits : ℕ) : ℝ := (misses + hits).choose hits * θ ^ hits * (1 - θ) ^ misses

/-- The probability of an element of data under the Bernoulli model of chance `θ`: anything other than zero is a hit. -/
noncomputable def bernoulliPmf (θ x : ℝ) : ℝ := if x ≠ 0 then θ else 1 - θ

/-- The Poisson probability of a count. -/
noncomputable def poissonPmf (θ : ℝ) (n : ℕ) : ℝ := exp (-θ) * θ ^ n / n.factorial

/-- The density of the Gamma model with a shape and a scale. -/
noncomputable def gammaPdf (kt : ℝ × ℝ) (x : ℝ) : ℝ := gammaPDFReal kt.1 (1 / kt.2) x

/-- The density of the normal model with a mean and a standard deviation. -/
noncomputable def normalPdf (ms : ℝ × ℝ) (x : ℝ) : ℝ := gaussianPDFReal ms.1 (ms.2 ^ 2).toNNReal x

/-- The data has one number in each row. -/
def OnePerRow (d : D) : Prop := (d.vec = none ∧ ∀ m, d.mat = some m → m.cols = 1) ∨ d.mat = none

/-! ## Proofs -/

theorem maxsize_of_onePerRow {d : D} (hw : d.WF) (h : OnePerRow d) : d.maxsize = d.cells.length := by
  obtain ⟨vec, mat⟩ := d
  rcases h with ⟨h1, h2⟩ | h1
  · simp only at h1; subst h1
    cases mat with
    | none => simp [D.maxsize, D.vsize, D.msize1, D.cells]
    | some m =>
      have := flatten_length (hw m rfl)
      rw [h2 m rfl, mul_one] at this
      simp only [D.maxsize, D.vsize, D.msize1, D.cells, Option.getD_none, List.nil_append, Option.map_some, Option.getD_some, this]
      simp
  · simp only at h1; subst h1
    cases vec <;> simp [D.maxsize, D.vsize, D.msize1, D.cells]

theorem vsum_nat (l : List ℕ) : Stats.vectorSum (l.map (Nat.cast : ℕ → ℝ)) = (l.sum : ℕ) := by
  rw [vectorSum_eq]
  induction l with
  | nil => simp
  | cons a l ih => simp only [List.map_cons, List.sum_cons, ih]; push_cast; rfl

/-- The general step for a beta prior. -/
theorem beta_step (a b : ℝ) (ha : 0 < a) (hb : 0 < b) (h m : ℝ) (hh : 0 ≤ h) (hm : 0 ≤ m) (K : ℝ) (hK : 0 < K) (like : ℝ → ℝ)
    (hl : ∀ θ, 0 < θ → θ < 1 → like θ = K * θ ^ h * (1 - θ) ^ m) :
    Bayes Set.univ (betaPDFReal a b) like (betaPDFReal (a + h) (b + m)) := by
  have b1 : 0 < ProbabilityTheory.beta a b := beta_pos ha hb
  have b2 : 0 < ProbabilityTheory.beta (a + h) (b + m) := beta_pos (by linarith) (by linarith)
  refine ⟨K * ProbabilityTheory.beta (a + h) (b + m) / ProbabilityTheory.beta a b, by positivity, ?_⟩
  intro θ _
  unfold betaPDFReal
  by_cases hθ : 0 < θ ∧ θ < 1
  · rw [if_pos hθ, if_pos hθ, hl θ hθ.1 hθ.2]
    have h1 : 0 < 1 - θ := by linarith [hθ.2]
    rw [show a + h - 1 = (a - 1) + h by ring, show b + m - 1 = (b - 1) + m by ring, rpow_add hθ.1, rpow_add h1]
    field_simp
  · rw [if_neg hθ, if_neg hθ]; simp

theorem binomial_like (l : List (ℕ × ℕ)) (θ : ℝ) (h0 : 0 < θ) (h1 : θ < 1) :
    (l.map fun p => binomialPmf θ p.1 p.2).prod = (l.map fun p => ((p.1 + p.2).choose p.2 : ℝ)).prod * θ ^ (((l.map Prod.snd).sum : ℕ) : ℝ) * (1 - θ) ^ (((l.map Prod.fst).sum : ℕ) : ℝ) := by
  rw [rpow_natCast, rpow_natCast]
  induction l with
  | nil => simp
  | cons p l ih =>
    simp only [List.map_cons, List.prod_cons, List.sum_cons, pow_add]
    rw [ih, binomialPmf]
    ring

/-- **C77 (beta and binomial).** For rows of counts of misses and hits, the posterior is a beta. -/
theorem C77_beta_binomial (a b : ℝ) (ha : 0 < a) (hb : 0 < b) (rows : List (ℕ × ℕ)) :
    ∃ post, betaBinom (a, b) ⟨rows.map fun p => [(p.1 : ℝ), (p.2 : ℝ)], 2⟩ = .ok post ∧
      Bayes Set.univ (betaPDFReal a b) (fun θ => (rows.map fun p => binomialPmf θ p.1 p.2).prod) (betaPDFReal post.1 post.2) := by
  refine ⟨(a + ((rows.map Prod.snd).sum : ℕ), b + ((rows.map Prod.fst).sum : ℕ)), ?_, ?_⟩
  · have e1 := vsum_nat (rows.map Prod.snd)
    have e2 := vsum_nat (rows.map Prod.fst)
    simp only [List.map_map] at e1 e2
    unfold betaBinom
    rw [if_neg (by simp)]
    simp only [List.map_map]
    rw [← e1, ← e2]
    rfl
  · refine beta_step a b ha hb _ _ (by positivity) (by positivity) (rows.map fun p => ((p.1 + p.2).choose p.2 : ℝ)).prod ?_ _ (fun θ h0 h1 => binomial_like rows θ h0 h1)
    apply List.prod_pos
    intro x hx
    obtain ⟨p, -, rfl⟩ := List.mem_map.1 hx
    exact_mod_cast Nat.choose_pos (Nat.le_add_left _ _)

/-- Without data, a binomial of parameters n and p counts as np hits and n(1-p) misses. -/
theorem C77_beta_binomial_params (a b n p : ℝ) (ha : 0 < a) (hb : 0 < b) (hn : 0 ≤ n) (hp : 0 ≤ p) (hp1 : p ≤ 1) :
    Bayes Set.univ (betaPDFReal a b) (fun θ => θ ^ (n * p) * (1 - θ) ^ (n * (1 - p))) (betaPDFReal (betaBinomNoData (a, b) n p).1 (betaBinomNoData (a, b) n p).2) :=
  beta_step a b ha hb _ _ (by positivity) (mul_nonneg hn (by linarith)) 1 one_pos _ (fun θ _ _ => by ring)

theorem countup_sum (l : List ℝ) : (l.map countup).sum = ((l.countP fun x => x ≠ 0 : ℕ) : ℝ) := by
  induction l with
  | nil => simp
  | cons x l ih => by_cases hx : x = 0 <;> simp only [List.map_cons, List.sum_cons, ih, List.countP_cons, countup, hx] <;> simp [add_comm]

theorem bernoulli_like (l : List ℝ) (θ : ℝ) : (l.map (bernoulliPmf θ)).prod = θ ^ (l.countP fun x => x ≠ 0) * (1 - θ) ^ (l.length - l.countP fun x => x ≠ 0) := by
  induction l with
  | nil => simp
  | cons x l ih =>
    have hle : (l.countP fun x => x ≠ 0) ≤ l.length := List.countP_le_length
    by_cases hx : x = 0
    · simp only [List.map_cons, List.prod_cons, ih, bernoulliPmf, hx, List.countP_cons, List.length_cons]
      simp only [ne_eq, not_true_eq_false, if_false, decide_false, Bool.false_eq_true, add_zero]
      rw [Nat.succ_sub hle, pow_succ]; ring
    · simp only [List.map_cons, List.prod_cons, ih, bernoulliPmf, List.countP_cons, List.length_cons]
      simp only [ne_eq, hx, not_false_eq_true, if_true, decide_true]
      rw [Nat.add_sub_add_right, pow_succ]; ring

theorem betaBernie_eq (ab : ℝ × ℝ) {d : D} (hw : d.WF) : betaBernie ab d = (ab.1 + (d.cells.countP fun x => x ≠ 0 : ℕ), ab.2 + ((d.cells.length - d.cells.countP fun x => x ≠ 0 : ℕ) : ℝ)) := by
  have hle : (d.cells.countP fun x => x ≠ 0) ≤ d.cells.length := List.countP_le_length
  rw [betaBernie, mapSum_eq, countup_sum, tsize_eq hw, Nat.cast_sub hle]

/-- **C77 (beta and Bernoulli).** For any data in any arrangement. -/
theorem C77_beta_bernoulli (a b : ℝ) (ha : 0 < a) (hb : 0 < b) (d : D) (hw : d.WF) :
    Bayes Set.univ (betaPDFReal a b) (fun θ => likelihood (bernoulliPmf θ) d) (betaPDFReal (betaBernie (a, b) d).1 (betaBernie (a, b) d).2) := by
  rw [betaBernie_eq _ hw]
  refine beta_step a b ha hb _ _ (by positivity) (by positivity) 1 one_pos _ (fun θ h0 h1 => ?_)
  rw [likelihood, bernoulli_like, rpow_natCast, rpow_natCast, one_mul]

/-- The general step for a gamma prior. -/
theorem gamma_step (a b : ℝ) (ha : 0 < a) (hb : 0 < b) (n s : ℝ) (hn : 0 ≤ n) (hs : 0 ≤ s) (K : ℝ) (hK : 0 < K) (like : ℝ → ℝ) (b' : ℝ) (hb' : 1 / b' = 1 / b + s) (hbp : 0 < b')
    (hl : ∀ θ, 0 < θ → like θ = K * θ ^ n * exp (-(s * θ))) :
    Bayes (Set.Ioi 0) (gammaPdf (a, b)) like (gammaPdf (a + n, b')) := by
  have g1 : 0 < Gamma a := Gamma_pos_of_pos ha
  have g2 : 0 < Gamma (a + n) := Gamma_pos_of_pos (by linarith)
  have r1 : 0 < (1 / b) ^ a := rpow_pos_of_pos (by positivity) _
  have r2 : 0 < (1 / b') ^ (a + n) := rpow_pos_of_pos (by positivity) _
  refine ⟨K * (1 / b) ^ a / Gamma a * (Gamma (a + n) / (1 / b') ^ (a + n)), by positivity, ?_⟩
  intro θ hθ
  have hθ : 0 < θ := hθ
  simp only [gammaPdf, gammaPDFReal]
  rw [if_pos hθ.le, if_pos hθ.le, hl θ hθ, show a + n - 1 = (a - 1) + n by ring, rpow_add hθ]
  have e : exp (-(1 / b' * θ)) = exp (-(1 / b * θ)) * exp (-(s * θ)) := by rw [← exp_add, hb']; congr 1; ring
  rw [e]
  generalize (1 / b') ^ (a + n) = R at *
  generalize (1 / b) ^ a = R0 at *
  field_simp

theorem expo_like (l : List ℝ) (hx : ∀ x ∈ l, 0 ≤ x) (θ : ℝ) : (l.map (exponentialPDFReal θ)).prod = θ ^ l.length * exp (-(l.sum * θ)) := by
  induction l with
  | nil => simp
  | cons x l ih =>
    have h0 := hx x (by simp)
    simp only [List.map_cons, List.prod_cons, List.sum_cons, List.length_cons, ih (fun y hy => hx y (by simp [hy]))]
    rw [exponentialPDFReal, gammaPDFReal, if_pos h0, show -((x + l.sum) * θ) = -(θ * x) + -(l.sum * θ) by ring, exp_add, pow_succ]
    simp
    ring

/-- **C77 (gamma and exponential).** For data with one number in each row, none negative: the posterior of the rate, the inverse of the exponential model's own parameter. -/
theorem C77_gamma_exponential (a b : ℝ) (ha : 0 < a) (hb : 0 < b) (d : D) (hw : d.WF) (h1 : OnePerRow d) (hx : ∀ x ∈ d.cells, 0 ≤ x) :
    Bayes (Set.Ioi 0) (gammaPdf (a, b)) (fun rate => likelihood (exponentialPDFReal rate) d) (gammaPdf (gammaExpo (a, b) d)) := by
  have hs : 0 ≤ d.cells.sum := List.sum_nonneg hx
  rw [gammaExpo, maxsize_of_onePerRow hw h1, total_eq]
  have hpos : 0 < 1 / b + d.cells.sum := by positivity
  refine gamma_step a b ha hb _ d.cells.sum (by positivity) hs 1 one_pos _ _ (by simp) (by positivity) (fun θ h0 => ?_)
  rw [likelihood, expo_like _ hx, rpow_natCast, one_mul]

theorem poisson_like (l : List ℕ) (θ : ℝ) : (l.map (poissonPmf θ)).prod = (l.map fun n : ℕ => ((n.factorial : ℝ))⁻¹).prod * θ ^ (l.sum) * exp (-(l.length * θ)) := by
  induction l with
  | nil => simp
  | cons n l ih =>
    simp only [List.map_cons, List.prod_cons, List.sum_cons, List.length_cons, ih, poissonPmf, pow_add]
    rw [show -(((l.length + 1 : ℕ) : ℝ) * θ) = -θ + -(l.length * θ) by push_cast; ring, exp_add]
    ring

/-- **C77 (gamma and Poisson).** For counts with one in each row. -/
theorem C77_gamma_poisson (a b : ℝ) (ha : 0 < a) (hb : 0 < b) (d : D) (hw : d.WF) (h1 : OnePerRow d) (ns : List ℕ) (hn : d.cells = ns.map Nat.cast) :
    Bayes (Set.Ioi 0) (gammaPdf (a, b)) (fun θ => (ns.map (poissonPmf θ)).prod) (gammaPdf (gammaPoisson (a, b) d)) := by
  have hsum : d.cells.sum = ((ns.sum : ℕ) : ℝ) := by rw [hn, ← vsum_nat, vectorSum_eq]
  have hlen : d.cells.length = ns.length := by rw [hn, List.length_map]
  rw [gammaPoisson, maxsize_of_onePerRow hw h1, total_eq, hsum, hlen]
  refine gamma_step a b ha hb _ ns.length (by positivity) (by positivity) (ns.map fun n : ℕ => ((n.factorial : ℝ))⁻¹).prod ?_ _ _ ?_ (by positivity) (fun θ h0 => ?_)
  · apply List.prod_pos
    intro x hx
    obtain ⟨n, -, rfl⟩ := List.mem_map.1 hx
    have : (0 : ℝ) < n.factorial := by exact_mod_cast n.factorial_pos
    positivity
  · simp only; field_simp; ring
  · rw [poisson_like, rpow_natCast]

/-- With two numbers in a row the shape of the exponential's posterior counts rows, not numbers: it is not the posterior. -/
theorem C77_gamma_exponential_wide_refuted : let d : D := ⟨none, some ⟨[[1, 1]], 2⟩⟩
    ¬ Bayes (Set.Ioi 0) (gammaPdf (1, 1)) (fun rate => likelihood (exponentialPDFReal rate) d) (gammaPdf (gammaExpo (1, 1) d)) := by
  rintro d ⟨c, hc, h⟩
  have hg : gammaExpo (1, 1) d = (2, 1 / 3) := by
    norm_num [d, gammaExpo, D.maxsize, D.vsize, D.msize1, Mat.size1, total_eq, D.cells]
  have key : ∀ θ : ℝ, 0 < θ → θ = c * 9 := by
    intro θ hθ
    have := h θ hθ
    beta_reduce at this
    rw [hg, likelihood, expo_like _ (by simp [d, D.cells])] at this
    simp only [gammaPdf, gammaPDFReal] at this
    rw [if_pos hθ.le, if_pos hθ.le] at this
    norm_num [d, D.cells] at this
    have e3 : exp (-(3 * θ)) = exp (-θ) * exp (-(2 * θ)) := by rw [← exp_add]; congr 1; ring
    rw [e3] at this
    have p1 := exp_pos (-θ)
    have p2 := exp_pos (-(2 * θ))
    have : (θ * (exp (-θ) * exp (-(2 * θ)))) * θ = (θ * (exp (-θ) * exp (-(2 * θ)))) * (c * 9) := by linarith
    exact mul_left_cancel₀ (by positivity) this
  have h1 := key 1 one_pos
  have h2 := key 2 two_pos
  linarith

/-- And the Poisson's posterior has the wrong scale. -/
theorem C77_gamma_poisson_wide_refuted : let d : D := ⟨none, some ⟨[[1, 1]], 2⟩⟩
    ¬ Bayes (Set.Ioi 0) (gammaPdf (1, 1)) (fun θ => ([1, 1].map (poissonPmf θ)).prod) (gammaPdf (gammaPoisson (1, 1) d)) := by
  rintro d ⟨c, hc, h⟩
  have hg : gammaPoisson (1, 1) d = (3, 1 / 2) := by
    norm_num [d, gammaPoisson, D.maxsize, D.vsize, D.msize1, Mat.size1, total_eq, D.cells]
  have key : ∀ θ : ℝ, 0 < θ → exp (-θ) = c * 4 := by
    intro θ hθ
    have := h θ hθ
    beta_reduce at this
    rw [hg, poisson_like] at this
    simp only [gammaPdf, gammaPDFReal] at this
    rw [if_pos hθ.le, if_pos hθ.le] at this
    norm_num at this
    have p2 := exp_pos (-(2 * θ))
    have : (θ ^ 2 * exp (-(2 * θ))) * exp (-θ) = (θ ^ 2 * exp (-(2 * θ))) * (c * 4) := by linarith
    exact mul_left_cancel₀ (by positivity) this
  have h1 := key 1 one_pos
  have h2 := key 2 two_pos
  rw [← h2] at h1
  have := exp_injective h1
  norm_num at this

/-! ### The normal -/

theorem gauss_form (mu v : ℝ) (hv : 0 < v) (x : ℝ) : gaussianPDFReal mu v.toNNReal x = (√(2 * π * v))⁻¹ * exp (-(x - mu) ^ 2 / (2 * v)) := by
  rw [gaussianPDFReal_def]; simp only; rw [coe_toNNReal _ hv.le]

theorem gauss_like (l : List ℝ) (θ v : ℝ) (hv : 0 < v) : (l.map (gaussianPDFReal θ v.toNNReal)).prod = ((√(2 * π * v))⁻¹) ^ l.length * exp (-((l.map fun x => (x - θ) ^ 2).sum) / (2 * v)) := by
  induction l with
  | nil => simp
  | cons x l ih =>
    simp only [List.map_cons, List.prod_cons, List.sum_cons, List.length_cons, ih, gauss_form θ v hv]
    rw [show -((x - θ) ^ 2 + (l.map fun x => (x - θ) ^ 2).sum) / (2 * v) = -(x - θ) ^ 2 / (2 * v) + -((l.map fun x => (x - θ) ^ 2).sum) / (2 * v) by ring, exp_add, pow_succ]
    ring

theorem normNormCore_sd (ms : ℝ × ℝ) (n mu v : ℝ) (hp : 0 < 1 / ms.2 ^ 2 + n / v) : (normNormCore ms n mu v).2 ^ 2 = 1 / (1 / ms.2 ^ 2 + n / v) := by
  simp only [normNormCore]
  rw [← rpow_natCast, ← rpow_mul hp.le]
  norm_num
  rw [rpow_neg_one]

theorem norm_step (ms : ℝ × ℝ) (hs : 0 < ms.2) (l : List ℝ) (v : ℝ) (hv : 0 < v) (mu : ℝ) (hmu : l.sum = l.length * mu) :
    Bayes Set.univ (normalPdf ms) (fun θ => (l.map (gaussianPDFReal θ v.toNNReal)).prod) (normalPdf (normNormCore ms l.length mu v)) := by
  have hP : 0 < 1 / ms.2 ^ 2 + l.length / v := by positivity
  have hsd := normNormCore_sd ms l.length mu v hP
  set P := 1 / ms.2 ^ 2 + l.length / v with hPdef
  set v0 := ms.2 ^ 2 with hv0
  have hv0p : 0 < v0 := by positivity
  set m' := (normNormCore ms l.length mu v).1 with hm'
  have hm'P : m' * P = ms.1 / v0 + l.length * mu / v := by
    rw [hm', normNormCore]; simp only; rw [← hv0, ← hPdef]; field_simp
  set A := (√(2 * π * v0))⁻¹ * ((√(2 * π * v))⁻¹) ^ l.length with hA
  set B := (√(2 * π * (1 / P)))⁻¹ with hB
  have hAp : 0 < A := by positivity
  have hBp : 0 < B := by positivity
  -- the difference of the exponents, at zero
  set Q : ℝ := -(ms.1) ^ 2 / (2 * v0) + -((l.map fun x => x ^ 2).sum) / (2 * v) + m' ^ 2 * P / 2 with hQ
  refine ⟨A / B * exp Q, by positivity, ?_⟩
  intro θ _
  beta_reduce
  have hss : (l.map fun x => (x - θ) ^ 2).sum = (l.map fun x => x ^ 2).sum - 2 * θ * (l.length * mu) + l.length * θ ^ 2 := by
    have := sum_sq_shift l θ 0
    simp only [sub_zero, mul_zero] at this
    rw [this, hmu]; ring
  rw [show normalPdf ms θ = (√(2 * π * v0))⁻¹ * exp (-(θ - ms.1) ^ 2 / (2 * v0)) from gauss_form _ _ hv0p _, gauss_like l θ v hv, normalPdf, hsd, gauss_form _ _ (by positivity), hss]
  have : (√(2 * π * v0))⁻¹ * exp (-(θ - ms.1) ^ 2 / (2 * v0)) * (((√(2 * π * v))⁻¹) ^ l.length * exp (-((l.map fun x => x ^ 2).sum - 2 * θ * (l.length * mu) + l.length * θ ^ 2) / (2 * v)))
      = A * exp (-(θ - ms.1) ^ 2 / (2 * v0) + -((l.map fun x => x ^ 2).sum - 2 * θ * (l.length * mu) + l.length * θ ^ 2) / (2 * v)) := by rw [exp_add, hA]; ring
  rw [this]
  have : A / B * exp Q * (B * exp (-(θ - m') ^ 2 / (2 * (1 / P)))) = A * exp (Q + -(θ - m') ^ 2 / (2 * (1 / P))) := by rw [exp_add Q, show A / B * exp Q * (B * exp (-(θ - m') ^ 2 / (2 * (1 / P)))) = A * (B / B) * exp Q * exp (-(θ - m') ^ 2 / (2 * (1 / P))) by ring, div_self hBp.ne']; ring
  rw [this]
  congr 2
  clear_value Q P m' v0
  have e1 : -(θ - m') ^ 2 / (2 * (1 / P)) = -(θ ^ 2 * P) / 2 + θ * (m' * P) - m' ^ 2 * P / 2 := by field_simp; ring
  rw [e1, hm'P, hQ, hPdef]
  field_simp
  ring

/-- **C77 (normal and normal).** For data in a matrix, not all the same: the posterior of the mean, with the variance of the data taken as known. -/
theorem C77_normal_normal (ms : ℝ × ℝ) (hs : 0 < ms.2) (d : D) (h : OnePart d) (hm : d.vec = none) (hpos : 0 < msd d) :
    ∃ post, normNorm ms d = .ok post ∧ Bayes Set.univ (normalPdf ms) (fun θ => likelihood (gaussianPDFReal θ (msd d).toNNReal) d) (normalPdf post) := by
  rcases h.cases with ⟨v, hv, rfl⟩ | ⟨m, hmw, hne, h1, rfl⟩
  · cases hm
  · obtain ⟨e1, e2, e3, e4⟩ := mat_only (m := m)
    have hmv : Stats.matrixMeanVar m.rows = (mean ⟨none, some m⟩, msd ⟨none, some m⟩) := by
      rw [Stats.C53_matrix_var _ hne]; simp [mean, msd, e4]
    refine ⟨_, rfl, ?_⟩
    have hfl : (m.size1 : ℝ) * m.cols = (D.cells ⟨none, some m⟩).length := by rw [e4, flatten_length hmw]; push_cast; rfl
    rw [hmv, hfl]
    refine norm_step ms hs _ _ hpos _ ?_
    have := h.pos
    rw [mean]; field_simp

/-- Without data, a normal with parameters counts as one observation, at its mean, with its standard deviation. -/
theorem C77_normal_normal_params (ms : ℝ × ℝ) (hs : 0 < ms.2) (mu sd : ℝ) (hsd : 0 < sd) :
    Bayes Set.univ (normalPdf ms) (fun θ => gaussianPDFReal θ (sd ^ 2).toNNReal mu) (normalPdf (normNormNoData ms mu sd)) := by
  have := norm_step ms hs [mu] (sd ^ 2) (by positivity) mu (by simp)
  simpa [normNormNoData] using this

/-- Data in a vector does not come back from the normal's update. -/
theorem C77_normal_normal_vector (ms : ℝ × ℝ) (v : List ℝ) : normNorm ms ⟨some v, none⟩ = .ub := rfl

/-! ### Updating in steps -/

/-- **C77 (in steps).** Updating with one data set and then with another is updating with both at once: Bernoulli. -/
theorem C77_bernoulli_steps (ab : ℝ × ℝ) (d1 d2 d : D) (h1 : d1.WF) (h2 : d2.WF) (h : d.WF) (hc : d.cells.Perm (d1.cells ++ d2.cells)) :
    betaBernie (betaBernie ab d1) d2 = betaBernie ab d := by
  simp only [betaBernie, mapSum_eq, tsize_eq h1, tsize_eq h2, tsize_eq h, (hc.map countup).sum_eq, hc.length_eq, List.map_append, List.sum_append, List.length_append]
  push_cast
  ext <;> simp only <;> ring

/-- The same for the exponential. -/
theorem C77_exponential_steps (kt : ℝ × ℝ) (hk : 0 < kt.2) (d1 d2 d : D) (h1 : d1.WF) (h2 : d2.WF) (h : d.WF) (o1 : OnePerRow d1) (o2 : OnePerRow d2) (o : OnePerRow d)
    (hc : d.cells.Perm (d1.cells ++ d2.cells)) : gammaExpo (gammaExpo kt d1) d2 = gammaExpo kt d := by
  simp only [gammaExpo, total_eq, maxsize_of_onePerRow h1 o1, maxsize_of_onePerRow h2 o2, maxsize_of_onePerRow h o, hc.sum_eq, hc.length_eq, List.sum_append, List.length_append]
  push_cast
  ext
  · simp only; ring
  · simp only [one_div, inv_inv]; ring

/-- The same for the Poisson. -/
theorem C77_poisson_steps (kt : ℝ × ℝ) (hk : 0 < kt.2) (d1 d2 d : D) (h1 : d1.WF) (h2 : d2.WF) (h : d.WF) (o1 : OnePerRow d1) (o2 : OnePerRow d2) (o : OnePerRow d)
    (hc : d.cells.Perm (d1.cells ++ d2.cells)) : gammaPoisson (gammaPoisson kt d1) d2 = gammaPoisson kt d := by
  simp only [gammaPoisson, total_eq, maxsize_of_onePerRow h1 o1, maxsize_of_onePerRow h2 o2, maxsize_of_onePerRow h o, hc.sum_eq, hc.length_eq, List.sum_append, List.length_append]
  push_cast
  ext
  · simp only; ring
  · simp only
    have p1 : 0 < kt.2 * (d1.cells.length : ℝ) + 1 := by positivity
    have p2 : 0 < kt.2 * ((d1.cells.length : ℝ) + d2.cells.length) + 1 := by positivity
    field_simp
    ring

/-! A case that meets the hypotheses of the theorems. -/

example : OnePerRow ⟨none, some ⟨[[3], [0], [2]], 1⟩⟩ ∧ gammaPoisson (2, 1) ⟨none, some ⟨[[3], [0], [2]], 1⟩⟩ = (7, 1 / 4) ∧ gammaExpo (2, 1) ⟨none, some ⟨[[3], [0], [2]], 1⟩⟩ = (5, 1 / 6) ∧
    betaBernie (1, 1) ⟨none, some ⟨[[3], [0], [2]], 1⟩⟩ = (3, 2) := by
  refine ⟨Or.inl ⟨rfl, by intro m hm; cases hm; rfl⟩, ?_, ?_, ?_⟩ <;>
    norm_num [gammaPoisson, gammaExpo, betaBernie, D.maxsize, D.vsize, D.msize1, D.msize2, D.tsize, Mat.size1, total_eq, mapSum_eq, D.cells, countup]

end Apop.Dist
