import Verif.Regress.OlsLik
import Mathlib.MeasureTheory.Measure.Prod

/-! # C159, C160: predictions and draws of a linear regression -/

namespace Apop.Ols
open Matrix Real MeasureTheory
variable {n k : ℕ}

/-! ## The models -/

/-- `ols_predict`, model/apop_ols.c:359-366: data without a vector are first prepared; then the vector is overwritten. As many columns as parameters (else GSL's error handler). -/
def predict (d : LData n k) (β : Fin (k + 1) → ℝ) : LData n k :=
  match d.y with
  | some _ => ⟨some (d.X *ᵥ β), d.X, d.w⟩
  | none => ⟨some ((shuffle d.X).2 *ᵥ β), (shuffle d.X).2, d.w⟩

/-- `memcpy(out+i, l, …)`. -/
def writeFrom (out : List ℝ) (i : ℕ) : List ℝ → Res (List ℝ)
  | [] => .ok out
  | x :: l => (wr out i x).bind fun out' => writeFrom out' (i + 1) l

/-- `ols_rng`, model/apop_ols.c:273-290: `x` is the draw from the input distribution, none if that returns an error; `z` what `gsl_ran_gaussian(r, 1)` would give; `sse` the element of the info page, `rows` the rows of the model's data. The return value and the array. -/
noncomputable def draw (β : Fin k → ℝ) (sse : ℝ) (rows : ℕ) (dsize : ℤ) (x : Option (Fin k → ℝ)) (z : ℝ) (out : List ℝ) : Res (ℤ × List ℝ) :=
  match x with
  | none => .ok (2, out)
  | some x => (wr out 0 (x ⬝ᵥ β + √(sse / rows) * z)).bind fun out' =>
    if 1 < dsize then (writeFrom out' 1 (List.ofFn x)).bind fun o => .ok (0, o) else .ok (0, out')

/-- The size of a draw, set from the data's width by `apop_model_clear`, apop_model.m4.c:22-28: the columns of the matrix, the vector not counted. -/
def dsizeOf (k : ℕ) : ℤ := k

/-- The draw of `apop_pmf` from data with vector and matrix, model/apop_pmf.c:180-186 (C63): the vector's element, then the matrix from column 1. -/
def pmfRow (y : ℝ) (x : Fin (k + 1) → ℝ) : Fin (k + 1) → ℝ := Fin.cons y fun j => x j.succ

/-! ## Proofs -/

/-- **C159.** Predicting fills the vector with the predictor of each row (a constant standing for the first column if there was no vector), leaves weights, and the matrix too unless it had to be prepared. -/
theorem C159_predict (d : LData n k) (β : Fin (k + 1) → ℝ) : (predict d β).y = some (predictor d β) ∧ (predict d β).w = d.w ∧ (∀ y, d.y = some y → (predict d β).X = d.X) ∧ (d.y = none → (predict d β).X = (shuffle d.X).2) := by
  unfold predict predictor
  cases hy : d.y with
  | some y => refine ⟨rfl, rfl, fun _ _ => rfl, fun h => by cases h⟩
  | none =>
    refine ⟨?_, rfl, fun y h => by exact absurd h (by simp), fun _ => rfl⟩
    obtain ⟨_, h2, h3⟩ := C86_shuffle d.X
    simp only [Option.some.injEq]
    funext i
    simp only [Matrix.mulVec, dotProduct]
    rw [Fin.sum_univ_succ, h2]
    simp only [h3, one_mul]

/-- Predicting again changes nothing: the matrix is not prepared twice. -/
theorem C159_idempotent (d : LData n k) (β : Fin (k + 1) → ℝ) : predict (predict d β) β = predict d β := by
  unfold predict
  cases d.y <;> rfl

/-- **C159 (own data).** Unweighted, predicting for the data estimated from gives the second column of the `<Predicted>` page. -/
theorem C159_own (y : Fin n → ℝ) (X : Matrix (Fin n) (Fin (k + 1)) ℝ) (e : Est n (k + 1)) (he : estimate ⟨y, X, none⟩ = .ok e) : (predict ⟨some y, X, none⟩ e.β).y = some e.predicted := by
  rw [(C159_predict _ _).1]
  congr 1
  funext i
  rw [(C86_page y X e he).2.1 i]
  rfl

/-- **C159 (fresh data).** For unprepared data whose first column is anything at all, the predictions are as they would be with another first column: the dependent variable is not read. -/
theorem C159_unread (X : Matrix (Fin n) (Fin (k + 1)) ℝ) (c : Fin n → ℝ) (w : Option (Fin n → ℝ)) (β : Fin (k + 1) → ℝ) : predict ⟨none, X.updateCol 0 c, w⟩ β = predict ⟨none, X, w⟩ β := by
  unfold predict shuffle
  simp

theorem writeFrom_ok : ∀ (l out : List ℝ) (i : ℕ), i + l.length ≤ out.length → writeFrom out i l = .ok (out.take i ++ l ++ out.drop (i + l.length)) := by
  intro l
  induction l with
  | nil => intro out i h; simp [writeFrom]
  | cons x l ih =>
    intro out i h
    simp only [List.length_cons] at h
    rw [writeFrom, wr_of_lt (by omega)]
    show writeFrom (out.set i x) (i + 1) l = _
    rw [ih _ _ (by simp; omega)]
    congr 1
    rw [List.take_set, List.drop_set_of_lt (by omega), List.take_add_one, List.getElem?_eq_getElem (by omega)]
    simp only [Option.toList_some, List.length_cons]
    rw [List.set_append_right _ _ (by simp)]
    simp [show i - min i out.length = 0 by omega]
    congr 1
    omega

theorem writeFrom_ub : ∀ (l out : List ℝ) (i : ℕ), l ≠ [] → out.length < i + l.length → writeFrom out i l = .ub := by
  intro l
  induction l with
  | nil => intro out i h; exact absurd rfl h
  | cons x l ih =>
    intro out i _ h
    simp only [List.length_cons] at h
    rw [writeFrom]
    by_cases hi : i < out.length
    · rw [wr_of_lt hi]
      show writeFrom (out.set i x) (i + 1) l = _
      refine ih _ _ ?_ (by simp; omega)
      rintro rfl
      simp at h; omega
    · simp [wr, hi]; rfl

/-- **C160 (what is drawn).** With room for it: the array gets the predictor of the row drawn from the input distribution plus Normal noise, then (unless the size is one) the row; the rest is left. -/
theorem C160_draw (β : Fin k → ℝ) (sse : ℝ) (rows : ℕ) (dsize : ℤ) (x : Fin k → ℝ) (z : ℝ) (out : List ℝ) (hd : 1 < dsize) (ho : k + 1 ≤ out.length) :
    draw β sse rows dsize (some x) z out = .ok (0, (∑ j, x j * β j + √(sse / rows) * z) :: (List.ofFn x ++ out.drop (k + 1))) := by
  unfold draw
  simp only
  rw [wr_of_lt (by omega)]
  simp only [Res.bind, hd, if_true]
  rw [writeFrom_ok _ _ _ (by simp; omega)]
  simp only [Res.bind]
  congr 2
  cases out with
  | nil => simp at ho
  | cons a out => simp [dotProduct, add_comm]

/-- Size one: only the dependent variable. -/
theorem C160_draw_one (β : Fin k → ℝ) (sse : ℝ) (rows : ℕ) (x : Fin k → ℝ) (z a : ℝ) (out : List ℝ) : draw β sse rows 1 (some x) z (a :: out) = .ok (0, (∑ j, x j * β j + √(sse / rows) * z) :: out) := by
  unfold draw
  simp only
  rw [wr_of_lt (by simp)]
  simp [Res.bind, dotProduct]

/-- **C160 (law).** The row drawn from the input distribution by its law μ, and the noise standard Normal and independent of it: the probability that the row is in B and the dependent variable in A is the integral over B of the Normal probability of A, with mean the row's predictor and variance SSE/n. -/
theorem C160_law (β : Fin k → ℝ) (sse : ℝ) (rows : ℕ) (hs : 0 ≤ sse) (μ : Measure (Fin k → ℝ)) [SFinite μ] (A : Set ℝ) (hA : MeasurableSet A) (B : Set (Fin k → ℝ)) (hB : MeasurableSet B) :
    (μ.prod (ProbabilityTheory.gaussianReal 0 1)) {p | p.1 ∈ B ∧ ∑ j, p.1 j * β j + √(sse / rows) * p.2 ∈ A} = ∫⁻ x in B, ProbabilityTheory.gaussianReal (∑ j, x j * β j) (sse / rows).toNNReal A ∂μ := by
  have hm : Measurable fun p : (Fin k → ℝ) × ℝ => ∑ j, p.1 j * β j + √(sse / rows) * p.2 := by fun_prop
  have hS : MeasurableSet {p : (Fin k → ℝ) × ℝ | p.1 ∈ B ∧ ∑ j, p.1 j * β j + √(sse / rows) * p.2 ∈ A} := (measurable_fst hB).inter (hm hA)
  rw [Measure.prod_apply hS, ← lintegral_indicator hB]
  refine lintegral_congr fun x => ?_
  by_cases hx : x ∈ B
  · rw [Set.indicator_of_mem hx]
    have h1 : (Prod.mk x ⁻¹' {p : (Fin k → ℝ) × ℝ | p.1 ∈ B ∧ ∑ j, p.1 j * β j + √(sse / rows) * p.2 ∈ A}) = (fun z => √(sse / rows) * z) ⁻¹' ((fun z => z + ∑ j, x j * β j) ⁻¹' A) := by
      ext z
      simp [hx, add_comm]
    have h2 : (ProbabilityTheory.gaussianReal 0 1).map (fun z => √(sse / rows) * z) = ProbabilityTheory.gaussianReal 0 (sse / rows).toNNReal := by
      rw [ProbabilityTheory.gaussianReal_map_const_mul]
      congr 1
      · simp
      · ext
        rw [NNReal.coe_mul]
        simp only [NNReal.coe_mk, NNReal.coe_one, mul_one]
        rw [Real.coe_toNNReal _ (by positivity)]
        exact sq_sqrt (by positivity)
    have h3 : (ProbabilityTheory.gaussianReal 0 (sse / rows).toNNReal).map (fun z => z + ∑ j, x j * β j) = ProbabilityTheory.gaussianReal (∑ j, x j * β j) (sse / rows).toNNReal := by
      rw [ProbabilityTheory.gaussianReal_map_add_const, zero_add]
    rw [h1, ← h3, Measure.map_apply (by fun_prop) hA, ← h2, Measure.map_apply (by fun_prop) ((show Measurable fun z : ℝ => z + ∑ j, x j * β j by fun_prop) hA)]
  · rw [Set.indicator_of_notMem hx]
    have : (Prod.mk x ⁻¹' {p : (Fin k → ℝ) × ℝ | p.1 ∈ B ∧ ∑ j, p.1 j * β j + √(sse / rows) * p.2 ∈ A}) = ∅ := by
      ext z
      simp [hx]
    rw [this, measure_empty]

/-- **C160 (variance).** Unweighted, the variance of the draws is not the error variance the estimation reports but less, (n - k)/n of it. -/
theorem C160_variance (y : Fin n → ℝ) (X : Matrix (Fin n) (Fin k) ℝ) (hk : k < n) (e : Est n k) (he : estimate ⟨y, X, none⟩ = .ok e) : sse none e.residual / n = e.s2 * (((n : ℝ) - k) / n) := by
  have hs := (C86_covariance ⟨y, X, none⟩ (fun i => by simp [In.weight]) hk e he).1
  have hdf : (0 : ℝ) < (n : ℝ) - k := by
    have : (k : ℝ) < n := by exact_mod_cast hk
    linarith
  obtain ⟨ho, hp, hr⟩ := C86_page y X e he
  have : sse none e.residual = loss ⟨y, X, none⟩ e.β := by
    simp only [sse, dotProduct, loss, In.weight]
    refine Finset.sum_congr rfl fun i _ => ?_
    rw [hr, Pi.sub_apply, hp, ho]; ring
  rw [this, hs]
  field_simp

/-- **C160 (size) fails**: an array "of size `dsize`", as documented, is one too short: with two columns or more every draw writes past its end. -/
theorem C160_size_refuted (β : Fin k → ℝ) (sse : ℝ) (rows : ℕ) (hk : 2 ≤ k) (x : Fin k → ℝ) (z : ℝ) (out : List ℝ) (ho : (out.length : ℤ) = dsizeOf k) : draw β sse rows (dsizeOf k) (some x) z out = .ub := by
  unfold dsizeOf at ho ⊢
  unfold draw
  simp only
  rw [wr_of_lt (by omega)]
  simp only [Res.bind]
  rw [if_pos (by omega), writeFrom_ub _ _ _ _ (by simp; omega)]
  intro h
  have := congrArg List.length h
  simp at this
  omega

/-- No draw from the default input distribution: the code two is returned and nothing written. -/
theorem C160_improper (β : Fin k → ℝ) (sse : ℝ) (rows : ℕ) (dsize : ℤ) (z : ℝ) (out : List ℝ) : draw β sse rows dsize none z out = .ok (2, out) := rfl

/-- **C160 (documented input distribution) fails**: with `apop_estimate(inset, apop_pmf)` of the regression's own data, which have a vector, a drawn row has the dependent variable where the constant should be: the predictor is off by the constant's coefficient times (y - 1). -/
theorem C160_pmf_refuted (β : Fin (k + 1) → ℝ) (y : ℝ) (x : Fin (k + 1) → ℝ) (hx : x 0 = 1) : ∑ j, pmfRow y x j * β j = ∑ j, x j * β j + β 0 * (y - 1) := by
  rw [Fin.sum_univ_succ, Fin.sum_univ_succ, hx]
  simp [pmfRow]
  ring

/-- A case: two columns, an array of three. -/
example : draw ![1, 2] 8 2 3 (some ![1, 5]) 3 [0, 0, 0] = .ok (0, [17, 1, 5]) := by
  rw [C160_draw _ _ _ _ _ _ _ (by norm_num) (by simp)]
  have : √((8 : ℝ) / (2 : ℕ)) = 2 := by rw [show ((8 : ℝ) / (2 : ℕ)) = 2 ^ 2 by norm_num]; exact sqrt_sq (by norm_num)
  rw [this]
  simp [Fin.sum_univ_two]
  norm_num

example : (predict ⟨none, !![9, 2; 7, 3], none⟩ ![1, 10]).y = some ![21, 31] := by
  rw [(C159_predict _ _).1]
  congr 1
  funext i
  fin_cases i <;> simp [predictor] <;> norm_num

end Apop.Ols
