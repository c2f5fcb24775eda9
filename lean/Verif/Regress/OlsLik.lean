import Verif.Regress.Ols
import Mathlib.Probability.Distributions.Gaussian.Real

/-! # C157: the log likelihood of a linear regression -/

namespace Apop.Ols
open Matrix Real
variable {n k : ℕ}

/-- A data set given to the likelihood: perhaps a vector, the matrix (with a column at least), perhaps weights. -/
structure LData (n k : ℕ) where
  y : Option (Fin n → ℝ)
  X : Matrix (Fin n) (Fin (k + 1)) ℝ
  w : Option (Fin n → ℝ)

/-- What the likelihood reads of the model: the parameters, the number on page `<Error variance>` if it is there, and the third column of `<Predicted>` if that is. -/
structure Fit (k : ℕ) where
  β : Fin (k + 1) → ℝ
  errVar : Option ℝ
  stored : Option (List ℝ)

/-! ## The models -/

/-- The errors computed, model/apop_ols.c:149-159 (and again at 187-197): without a vector, the first column is the dependent variable, and its coefficient that of a constant. -/
def errorsOf (d : LData n k) (β : Fin (k + 1) → ℝ) : Fin n → ℝ := fun i =>
  match d.y with
  | some y => β ⬝ᵥ d.X i - y i
  | none => (β ⬝ᵥ d.X i + β 0 * (1 - d.X i 0)) - d.X i 0

/-- The errors used, model/apop_ols.c:142-160; `own` is `d==p->data`. The stored ones are copied as far as they go into zeros. -/
def errorsUsed (own : Bool) (d : LData n k) (f : Fit k) : Fin n → ℝ :=
  match f.stored, own with
  | some l, true => fun i => l.getD i 0
  | _, _ => errorsOf d f.β

/-- σ², before the root of model/apop_ols.c:162-163; none for NaN. -/
noncomputable def sigma2 (own : Bool) (d : LData n k) (f : Fit k) : Option ℝ :=
  match f.errVar with
  | some v => some v
  | none => Stats.vectorVar (some (List.ofFn (errorsUsed own d f))) none

/-- `gsl_ran_gaussian_pdf`. -/
noncomputable def gaussPdf (x σ : ℝ) : ℝ := 1 / (√(2 * π) * |σ|) * exp (-(x / |σ|) * (x / |σ|) / 2)

/-- The weight of a row, model/apop_ols.c:171. -/
def LData.weight (d : LData n k) (i : Fin n) : ℝ := match d.w with | none => 1 | some w => w i

/-- A row's part of the likelihood, whose logarithm is added up, model/apop_ols.c:165-172; `px` is the probability of a row by the input distribution. -/
noncomputable def part (px : (Fin (k + 1) → ℝ) → ℝ) (d : LData n k) (e : Fin n → ℝ) (σ : ℝ) (i : Fin n) : ℝ := gaussPdf (e i) σ * d.weight i * px (d.X i)

/-- `ols_log_likelihood`, model/apop_ols.c:130-174. None stands for what is not a finite number: a σ of zero or NaN, or the logarithm of a part that is not positive. -/
noncomputable def ll (px : (Fin (k + 1) → ℝ) → ℝ) (own : Bool) (d : LData n k) (f : Fit k) : Option ℝ :=
  open Classical in
  (sigma2 own d f).bind fun v =>
    if 0 < v ∧ ∀ i, 0 < part px d (errorsUsed own d f) (√v) i then some (∑ i, log (part px d (errorsUsed own d f) (√v) i)) else none

/-- The model left by the estimation (C86), as the likelihood reads it. -/
def Est.fit (e : Est n (k + 1)) : Fit k := ⟨e.β, some e.s2, some (List.ofFn e.residual)⟩

/-- The data of the estimation. -/
def In.data (d : In n (k + 1)) : LData n k := ⟨some d.y, d.X, d.w⟩

/-! ## Proofs -/

theorem gaussPdf_eq (x v : ℝ) (hv : 0 < v) (m y : ℝ) (hx : x = m - y) : gaussPdf x √v = ProbabilityTheory.gaussianPDFReal m v.toNNReal y := by
  subst hx
  rw [ProbabilityTheory.gaussianPDFReal_def, Real.coe_toNNReal _ hv.le]
  unfold gaussPdf
  have hs : |√v| = √v := abs_of_nonneg (sqrt_nonneg v)
  have h2 : √v * √v = v := mul_self_sqrt hv.le
  have h0 : √v ≠ 0 := (sqrt_pos.2 hv).ne'
  rw [hs, ← Real.sqrt_mul (by positivity), one_div]
  congr 2
  have : -((m - y) / √v) * ((m - y) / √v) = -((m - y) ^ 2) / v := by
    have h3 : v = √v ^ 2 := by rw [pow_two, h2]
    field_simp
    rw [← h3]
  rw [this]
  field_simp
  ring

theorem gaussPdf_pos (x v : ℝ) (hv : 0 < v) : 0 < gaussPdf x √v := by
  unfold gaussPdf
  have := sqrt_pos.2 hv
  positivity

/-- The predictor of a row: the parameters times the row, the first column a constant if it is also the dependent variable. -/
def predictor (d : LData n k) (β : Fin (k + 1) → ℝ) (i : Fin n) : ℝ :=
  match d.y with
  | some _ => ∑ j, d.X i j * β j
  | none => β 0 + ∑ j : Fin k, d.X i j.succ * β j.succ

/-- The dependent variable. -/
def dependent (d : LData n k) (i : Fin n) : ℝ := match d.y with | some y => y i | none => d.X i 0

theorem errorsOf_eq (d : LData n k) (β : Fin (k + 1) → ℝ) (i : Fin n) : errorsOf d β i = predictor d β i - dependent d i := by
  unfold errorsOf predictor dependent dotProduct
  cases d.y with
  | some y =>
    simp only
    rw [Finset.sum_congr rfl fun j _ => mul_comm (β j) (d.X i j)]
  | none =>
    simp only
    rw [Fin.sum_univ_succ, Finset.sum_congr rfl fun (j : Fin k) _ => mul_comm (β j.succ) (d.X i j.succ)]
    ring

theorem ll_some (px : (Fin (k + 1) → ℝ) → ℝ) (own : Bool) (d : LData n k) (f : Fit k) (v : ℝ) (hs : sigma2 own d f = some v) (hv : 0 < v) (hw : ∀ i, 0 < d.weight i) (hp : ∀ i, 0 < px (d.X i)) :
    ll px own d f = some (∑ i, (log (gaussPdf (errorsUsed own d f i) √v) + log (d.weight i) + log (px (d.X i)))) := by
  unfold ll
  have hpos : ∀ i, 0 < part px d (errorsUsed own d f) (√v) i := fun i => mul_pos (mul_pos (gaussPdf_pos _ _ hv) (hw i)) (hp i)
  rw [hs, Option.bind_some, if_pos ⟨hv, hpos⟩]
  congr 1
  refine Finset.sum_congr rfl fun i _ => ?_
  unfold part
  rw [log_mul (mul_pos (gaussPdf_pos _ _ hv) (hw i)).ne' (hp i).ne', log_mul (gaussPdf_pos _ _ hv).ne' (hw i).ne']

/-- **C157 (value).** For a data set that is not the model's own (or a model without a `<Predicted>` page), prepared or not, with an error variance and with weights and input probabilities positive: the log likelihood is the sum over the rows of the logarithms of the Normal density of the dependent variable around the predictor, of the weight, and of the row's probability. -/
theorem C157_value (px : (Fin (k + 1) → ℝ) → ℝ) (own : Bool) (d : LData n k) (f : Fit k) (ho : own = false ∨ f.stored = none) (v : ℝ) (hs : f.errVar = some v) (hv : 0 < v) (hw : ∀ i, 0 < d.weight i) (hp : ∀ i, 0 < px (d.X i)) :
    ll px own d f = some (∑ i, (log (ProbabilityTheory.gaussianPDFReal (predictor d f.β i) v.toNNReal (dependent d i)) + log (d.weight i) + log (px (d.X i)))) := by
  have he : errorsUsed own d f = errorsOf d f.β := by
    unfold errorsUsed
    rcases ho with h | h
    · subst h; cases f.stored <;> rfl
    · rw [h]
  rw [ll_some px own d f v (by unfold sigma2; rw [hs]) hv hw hp]
  congr 1
  refine Finset.sum_congr rfl fun i _ => ?_
  rw [he, gaussPdf_eq _ v hv _ _ (errorsOf_eq d f.β i)]

/-- Without an error variance, the sample variance of the errors takes its place (two rows at least). -/
theorem C157_sample_variance (px : (Fin (k + 1) → ℝ) → ℝ) (d : LData n k) (β : Fin (k + 1) → ℝ) (stored : Option (List ℝ)) (hn : 2 ≤ n) :
    ll px false d ⟨β, none, stored⟩ = ll px false d ⟨β, some ((∑ i, ((predictor d β i - dependent d i) - (∑ j, (predictor d β j - dependent d j)) / n) ^ 2) / ((n : ℝ) - 1)), stored⟩ := by
  have he : ∀ v, errorsUsed false d ⟨β, v, stored⟩ = errorsOf d β := by intro v; unfold errorsUsed; cases stored <;> rfl
  have : sigma2 false d ⟨β, none, stored⟩ = some ((∑ i, ((predictor d β i - dependent d i) - (∑ j, (predictor d β j - dependent d j)) / n) ^ 2) / ((n : ℝ) - 1)) := by
    unfold sigma2
    simp only
    rw [he, Stats.C52_var _ (by simpa using hn)]
    simp only [List.map_ofFn, List.sum_ofFn, List.length_ofFn, Function.comp_def, errorsOf_eq]
  unfold ll
  rw [this, he, he]
  rfl

/-- **C157 (unprepared data).** Data without a vector have the likelihood of the same data prepared (its first column moved to the vector and replaced by ones), weights and all. -/
theorem C157_unprepared (d : LData n k) (hy : d.y = none) (f : Fit k) : ll (fun _ => 1) false d f = ll (fun _ => 1) false ⟨some (shuffle d.X).1, (shuffle d.X).2, d.w⟩ f := by
  have he : errorsUsed false d f = errorsUsed false ⟨some (shuffle d.X).1, (shuffle d.X).2, d.w⟩ f := by
    have : errorsOf d f.β = errorsOf ⟨some (shuffle d.X).1, (shuffle d.X).2, d.w⟩ f.β := by
      funext i
      rw [errorsOf_eq, errorsOf_eq]
      obtain ⟨h1, h2, h3⟩ := C86_shuffle d.X
      simp only [predictor, dependent, hy]
      rw [Fin.sum_univ_succ, h1, h2]
      simp only [h3]
      ring
    unfold errorsUsed
    cases f.stored <;> exact this
  unfold ll sigma2 part
  rw [he]
  rfl

theorem log_gauss (m v y : ℝ) (hv : 0 < v) : log (ProbabilityTheory.gaussianPDFReal m v.toNNReal y) = -(log (2 * π * v) / 2) - (y - m) ^ 2 / (2 * v) := by
  rw [ProbabilityTheory.gaussianPDFReal_def, Real.coe_toNNReal _ hv.le]
  have : 0 < 2 * π * v := by positivity
  rw [log_mul (inv_ne_zero (sqrt_pos.2 this).ne') (exp_pos _).ne', log_inv, log_sqrt this.le, log_exp, neg_div]
  ring

/-- Unweighted, with the default input distribution: the log likelihood in terms of the sum of squared errors. -/
theorem ll_loss (y : Fin n → ℝ) (X : Matrix (Fin n) (Fin (k + 1)) ℝ) (f : Fit k) (own : Bool) (ho : own = false ∨ f.stored = none) (v : ℝ) (hs : f.errVar = some v) (hv : 0 < v) :
    ll (fun _ => 1) own ⟨some y, X, none⟩ f = some (-(n * log (2 * π * v) / 2) - loss ⟨y, X, none⟩ f.β / (2 * v)) := by
  rw [C157_value _ own _ f ho v hs hv (fun i => by simp [LData.weight]) (fun i => one_pos)]
  congr 1
  simp only [LData.weight, log_one, add_zero, log_gauss _ _ _ hv, predictor, dependent]
  rw [Finset.sum_sub_distrib, Finset.sum_const, Finset.card_univ, Fintype.card_fin, nsmul_eq_mul, ← Finset.sum_div]
  simp only [loss, In.weight, one_mul]
  ring

/-- **C157 (maximum likelihood).** Without weights, for any error variance held fixed: of all parameters those of least squares, and only those, have the greatest log likelihood. -/
theorem C157_maximum (y : Fin n → ℝ) (X : Matrix (Fin n) (Fin (k + 1)) ℝ) (e : Est n (k + 1)) (he : estimate ⟨y, X, none⟩ = .ok e) (v : ℝ) (hv : 0 < v) (b : Fin (k + 1) → ℝ) :
    ∃ l le, ll (fun _ => 1) false ⟨some y, X, none⟩ ⟨b, some v, none⟩ = some l ∧ ll (fun _ => 1) false ⟨some y, X, none⟩ ⟨e.β, some v, none⟩ = some le ∧ l ≤ le ∧ (l = le → b = e.β) := by
  have hL := C86_least ⟨y, X, none⟩ (fun i => by simp [In.weight]) e he b
  refine ⟨_, _, ll_loss y X ⟨b, some v, none⟩ false (Or.inl rfl) v rfl hv, ll_loss y X ⟨e.β, some v, none⟩ false (Or.inl rfl) v rfl hv, ?_, ?_⟩
  · have := div_le_div_of_nonneg_right hL.1 (show (0 : ℝ) ≤ 2 * v by positivity)
    simp only
    linarith
  · intro h
    apply hL.2
    have h2 : loss ⟨y, X, none⟩ b / (2 * v) = loss ⟨y, X, none⟩ e.β / (2 * v) := by simp only at h; linarith
    have h3 : (2 * v) ≠ 0 := by positivity
    field_simp at h2
    linarith

theorem stored_eq (e : Est n (k + 1)) (d : LData n k) (h : ∀ i, e.residual i = errorsOf d e.β i) : errorsUsed true d e.fit = errorsUsed false d e.fit := by
  unfold errorsUsed Est.fit
  simp only
  funext i
  rw [List.getD_eq_getElem?_getD, List.getElem?_ofFn]
  simp [h]

/-- **C157 (own data).** Without weights, the log likelihood of the data estimated from, taken from the stored residuals, is that of a copy of the data, taken from the parameters. -/
theorem C157_own (px : (Fin (k + 1) → ℝ) → ℝ) (y : Fin n → ℝ) (X : Matrix (Fin n) (Fin (k + 1)) ℝ) (e : Est n (k + 1)) (he : estimate ⟨y, X, none⟩ = .ok e) :
    ll px true (In.data ⟨y, X, none⟩) e.fit = ll px false (In.data ⟨y, X, none⟩) e.fit := by
  have h : ∀ i, e.residual i = errorsOf (In.data ⟨y, X, none⟩) e.β i := by
    intro i
    obtain ⟨ho, hp, hr⟩ := C86_page y X e he
    rw [errorsOf_eq, hr, Pi.sub_apply, hp, ho]
    rfl
  have hs : sigma2 true (In.data ⟨y, X, none⟩) e.fit = sigma2 false (In.data ⟨y, X, none⟩) e.fit := rfl
  unfold ll
  rw [hs, stored_eq e _ h]

/-- **C157 (reported).** Without weights, with more rows than columns and a fit that is not perfect: the log likelihood the estimation reports is -(n/2) log(2πσ²) - (n - k)/2, σ² being SSE/(n - k); it is less than the maximum over σ as well, -(n/2) log(2π SSE/n) - n/2. -/
theorem C157_reported (y : Fin n → ℝ) (X : Matrix (Fin n) (Fin (k + 1)) ℝ) (e : Est n (k + 1)) (he : estimate ⟨y, X, none⟩ = .ok e) (hk : k + 1 < n) (h0 : 0 < e.s2) :
    ll (fun _ => 1) true (In.data ⟨y, X, none⟩) e.fit = some (-(n * log (2 * π * e.s2) / 2) - ((n : ℝ) - (k + 1)) / 2) ∧
    -(n * log (2 * π * e.s2) / 2) - ((n : ℝ) - (k + 1)) / 2 < -(n * log (2 * π * (loss ⟨y, X, none⟩ e.β / n)) / 2) - n / 2 := by
  obtain ⟨hs, _⟩ := C86_covariance ⟨y, X, none⟩ (fun i => by simp [In.weight]) hk e he
  have hn : (0 : ℝ) < n := by exact_mod_cast (by omega : 0 < n)
  have hdf : (0 : ℝ) < (n : ℝ) - (k + 1) := by
    have : ((k + 1 : ℕ) : ℝ) < n := by exact_mod_cast hk
    push_cast at this; linarith
  push_cast at hs
  have hl : loss ⟨y, X, none⟩ e.β = e.s2 * ((n : ℝ) - (k + 1)) := by rw [hs]; field_simp
  constructor
  · rw [C157_own _ y X e he]
    have := ll_loss y X e.fit false (Or.inl rfl) e.s2 rfl h0
    refine this.trans ?_
    congr 1
    rw [show e.fit.β = e.β from rfl, hl]
    field_simp
  · rw [hl]
    have hr : 2 * π * (e.s2 * ((n : ℝ) - (k + 1)) / n) = (2 * π * e.s2) * (((n : ℝ) - (k + 1)) / n) := by ring
    rw [hr, log_mul (x := 2 * π * e.s2) (y := ((n : ℝ) - (k + 1)) / n) (by positivity) (by positivity)]
    have hk0 : (0 : ℝ) ≤ k := Nat.cast_nonneg k
    have hne : ((n : ℝ) - (k + 1)) / n ≠ 1 := by
      intro h; rw [div_eq_one_iff_eq hn.ne'] at h; linarith
    have hlt := log_lt_sub_one_of_pos (by positivity : 0 < ((n : ℝ) - (k + 1)) / n) hne
    have : (n : ℝ) * log (((n : ℝ) - (k + 1)) / n) < n * ((((n : ℝ) - (k + 1)) / n) - 1) := mul_lt_mul_of_pos_left hlt hn
    have h2 : (n : ℝ) * ((((n : ℝ) - (k + 1)) / n) - 1) = -(k + 1) := by field_simp; ring
    rw [h2] at this
    nlinarith

/-- **C157 (stale).** Once there is a page of predictions, the log likelihood of the model's own data does not depend on the parameters: two models with other parameters but the same pages have the same. -/
theorem C157_stale_refuted (px : (Fin (k + 1) → ℝ) → ℝ) (d : LData n k) (l : List ℝ) (v : Option ℝ) (b c : Fin (k + 1) → ℝ) : ll px true d ⟨b, v, some l⟩ = ll px true d ⟨c, v, some l⟩ := rfl

/-- The weights move the log likelihood by the sum of their logarithms, whatever the parameters. -/
theorem C157_weights (y w : Fin n → ℝ) (X : Matrix (Fin n) (Fin (k + 1)) ℝ) (hw : ∀ i, 0 < w i) (b : Fin (k + 1) → ℝ) (v : ℝ) (hv : 0 < v) :
    ll (fun _ => 1) false ⟨some y, X, some w⟩ ⟨b, some v, none⟩ = some (-(n * log (2 * π * v) / 2) - loss ⟨y, X, none⟩ b / (2 * v) + ∑ i, log (w i)) := by
  have h := ll_loss y X ⟨b, some v, none⟩ false (Or.inl rfl) v rfl hv
  rw [C157_value _ false _ _ (Or.inl rfl) v rfl hv (fun i => by simp [LData.weight]) (fun i => one_pos)] at h
  rw [C157_value _ false _ _ (Or.inl rfl) v rfl hv hw (fun i => one_pos), ← Option.some.inj h]
  congr 1
  rw [← Finset.sum_add_distrib]
  refine Finset.sum_congr rfl fun i _ => ?_
  simp only [LData.weight, log_one, predictor, dependent]
  ring

/-- One column of ones, two rows, weights one and four. -/
noncomputable def wtd : In 2 1 := ⟨![0, 1], fun _ _ => 1, some ![1, 4]⟩

/-- **C157 (weights) fails**: the weighted estimate 4/5 is not the parameter of greatest log likelihood: 1/2, which ignores the weights, has more, for every error variance. -/
theorem C157_weights_refuted (v : ℝ) (hv : 0 < v) : ∃ e, estimate wtd = .ok e ∧ ∃ l l', ll (fun _ => 1) false (In.data wtd) ⟨e.β, some v, none⟩ = some l ∧ ll (fun _ => 1) false (In.data wtd) ⟨fun _ => 1 / 2, some v, none⟩ = some l' ∧ l < l' := by
  have hnn : Nonneg wtd := by intro i; fin_cases i <;> simp [wtd, In.weight]
  obtain ⟨e, he⟩ : ∃ e, estimate wtd = .ok e := by
    rw [C86_when _ hnn]
    intro b hb
    have := hb 0 (by simp [wtd, In.weight])
    simp [wtd] at this
    funext j; fin_cases j; simpa using this
  have hw : ∀ i, 0 < (![1, 4] : Fin 2 → ℝ) i := by intro i; fin_cases i <;> simp
  have hb : e.β 0 = 4 / 5 := by
    have := C86_normal wtd hnn e he 0
    simp [wtd, In.weight, Fin.sum_univ_two] at this
    linarith
  refine ⟨e, he, _, _, C157_weights ![0, 1] ![1, 4] (fun _ _ => 1) hw e.β v hv, C157_weights ![0, 1] ![1, 4] (fun _ _ => 1) hw (fun _ => 1 / 2) v hv, ?_⟩
  simp only [loss, In.weight, Fin.sum_univ_two, one_mul]
  simp [hb]
  field_simp
  norm_num

theorem gauss_sq (x v : ℝ) (hv : 0 < v) : log (gaussPdf x √v) = -(log (2 * π * v) / 2) - x ^ 2 / (2 * v) := by
  rw [gaussPdf_eq x v hv x 0 (by ring), log_gauss _ _ _ hv]; ring

/-- **C157 (own data, weights) fails**: with weights the stored residuals are not the data's; the data estimated from and a copy of them have different log likelihoods. -/
theorem C157_own_weights_refuted : ∃ e, estimate wtd = .ok e ∧ ∃ l l', ll (fun _ => 1) true (In.data wtd) e.fit = some l ∧ ll (fun _ => 1) false (In.data wtd) e.fit = some l' ∧ l < l' := by
  have hnn : Nonneg wtd := by intro i; fin_cases i <;> simp [wtd, In.weight]
  have s4 : √(4 : ℝ) = 2 := by rw [show (4 : ℝ) = 2 ^ 2 by norm_num]; exact Real.sqrt_sq (by norm_num)
  obtain ⟨e, he, -⟩ := C157_weights_refuted 1 one_pos
  have hb : e.β 0 = 4 / 5 := by
    have := C86_normal wtd hnn e he 0
    simp [wtd, In.weight, Fin.sum_univ_two] at this
    linarith
  have hs : e.s2 = 4 / 5 := by
    rw [(C86_covariance wtd hnn (by norm_num) e he).1]
    simp [loss, wtd, In.weight, Fin.sum_univ_two, hb]
    norm_num
  have hv : 0 < e.s2 := by rw [hs]; norm_num
  have hw : ∀ i, 0 < (In.data wtd).weight i := by intro i; fin_cases i <;> simp [wtd, In.data, LData.weight]
  have hr := (C86_weighted_page ![0, 1] ![1, 4] (fun _ _ => 1) e he).2.2
  have o0 : errorsUsed true (In.data wtd) e.fit 0 = 4 / 5 := by
    have := hr 0
    simp [hb] at this
    simp [errorsUsed, Est.fit, this]
  have o1 : errorsUsed true (In.data wtd) e.fit 1 = -(2 / 5) := by
    have := hr 1
    simp [hb, s4] at this
    simp [errorsUsed, Est.fit, this]; norm_num
  have c0 : errorsUsed false (In.data wtd) e.fit 0 = 4 / 5 := by
    simp [errorsUsed, Est.fit, errorsOf, In.data, wtd, dotProduct, hb]
  have c1 : errorsUsed false (In.data wtd) e.fit 1 = -(1 / 5) := by
    simp [errorsUsed, Est.fit, errorsOf, In.data, wtd, dotProduct, hb]; norm_num
  refine ⟨e, he, _, _, ll_some _ true _ _ e.s2 rfl hv hw (fun _ => one_pos), ll_some _ false _ _ e.s2 rfl hv hw (fun _ => one_pos), ?_⟩
  simp only [Fin.sum_univ_two, o0, o1, c0, c1, gauss_sq _ _ hv]
  have : (-(2 / 5) : ℝ) ^ 2 / (2 * e.s2) > (-(1 / 5) : ℝ) ^ 2 / (2 * e.s2) := by rw [hs]; norm_num
  linarith

/-- The hypotheses are met: two rows on a constant; error variance 1/2, one degree of freedom. -/
example : ∃ e, estimate ⟨![0, 1], fun (_ : Fin 2) (_ : Fin 1) => 1, none⟩ = .ok e ∧ e.s2 = 1 / 2 ∧ e.β 0 = 1 / 2 := by
  have hnn : Nonneg ⟨![0, 1], fun (_ : Fin 2) (_ : Fin 1) => 1, none⟩ := by intro i; simp [In.weight]
  obtain ⟨e, he⟩ : ∃ e, estimate ⟨![0, 1], fun (_ : Fin 2) (_ : Fin 1) => 1, none⟩ = .ok e := by
    rw [C86_when _ hnn]
    intro b hb
    have := hb 0 (by simp [In.weight])
    simp at this
    funext j; fin_cases j; simpa using this
  have hb : e.β 0 = 1 / 2 := by
    have := C86_normal _ hnn e he 0
    simp [In.weight, Fin.sum_univ_two] at this
    linarith
  refine ⟨e, he, ?_, hb⟩
  rw [(C86_covariance _ hnn (by norm_num) e he).1]
  simp [loss, In.weight, Fin.sum_univ_two, hb]
  norm_num

end Apop.Ols
