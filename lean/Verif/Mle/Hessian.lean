import Verif.Mle.Gradient
import Verif.Base.C
import Mathlib.LinearAlgebra.Matrix.NonsingularInverse
import Mathlib.LinearAlgebra.Matrix.PosDef
import Mathlib.Data.Matrix.Mul

/-! # The numerical Hessian and covariance (apop_mle.m4.c:150-265) -/

namespace Apop.Mle

open Matrix

variable {n : ℕ}

/-- What the Hessian needs of the model: the log likelihood, the constraint, the score if one is
registered, and the step its settings give. -/
structure Model (n : ℕ) where
  f : P n → ℝ
  c : Option (Cn n)
  score : Option (P n → P n)
  delta : ℝ

/-- `apop_fn_for_infomatrix`, apop_mle.m4.c:150-169: element `k` of the score, or of the numerical
gradient, which uses the step in the model's settings and changes the parameters shared by the two
models. -/
noncomputable def infoFn (m : Model n) (k : Fin n) : Fn n := fun s =>
  match m.score with
  | some g => (g s k, s)
  | none => ((gradient (quiet m.f) m.c m.delta s).1 k, (gradient (quiet m.f) m.c m.delta s).2)

/-- `*gsl_matrix_ptr(out->matrix, a, b) += v`. -/
def bump (M : Matrix (Fin n) (Fin n) ℝ) (a b : Fin n) (v : ℝ) : Matrix (Fin n) (Fin n) ℝ :=
  Matrix.of fun x y => if x = a ∧ y = b then M x y + v else M x y

/-- The inner loop, apop_mle.m4.c:216-219. -/
noncomputable def addScore (k : Fin n) (d : P n) : List (Fin n) → Matrix (Fin n) (Fin n) ℝ → Matrix (Fin n) (Fin n) ℝ
  | [], M => M
  | j :: js, M => addScore k d js (bump (bump M k j (d j / 2)) j k (d j / 2))

/-- The outer loop, apop_mle.m4.c:212-221; the ad hoc model has no constraint. -/
noncomputable def hessLoop (m : Model n) (delta : ℝ) : List (Fin n) → Matrix (Fin n) (Fin n) ℝ × P n → Matrix (Fin n) (Fin n) ℝ × P n
  | [], acc => acc
  | k :: ks, acc =>
    let d := gradient (infoFn m k) none delta acc.2
    hessLoop m delta ks (addScore k d.1 (List.finRange n) acc.1, d.2)

/-- `apop_model_hessian`, apop_mle.m4.c:187-225: the matrix, and the model's parameters afterwards. -/
noncomputable def hessian (m : Model n) (delta : ℝ) (beta : P n) : Matrix (Fin n) (Fin n) ℝ × P n :=
  hessLoop m delta (List.finRange n) (0, beta)

/-! ## The matrix -/

theorem bump_apply (M : Matrix (Fin n) (Fin n) ℝ) (a b : Fin n) (v : ℝ) (x y : Fin n) :
    bump M a b v x y = M x y + if x = a ∧ y = b then v else 0 := by
  unfold bump
  rw [Matrix.of_apply]
  split <;> simp

theorem addScore_apply (k : Fin n) (d : P n) (js : List (Fin n)) (hn : js.Nodup) (M : Matrix (Fin n) (Fin n) ℝ) (x y : Fin n) :
    addScore k d js M x y = M x y + (if x = k ∧ y ∈ js then d y / 2 else 0) + (if y = k ∧ x ∈ js then d x / 2 else 0) := by
  induction js generalizing M with
  | nil => simp [addScore]
  | cons j js ih =>
    rw [List.nodup_cons] at hn
    rw [addScore, ih hn.2, bump_apply, bump_apply]
    by_cases hxk : x = k <;> by_cases hyk : y = k <;> by_cases hyj : y = j <;> by_cases hxj : x = j <;>
      simp_all

theorem hessLoop_apply (m : Model n) (delta : ℝ) (x y : Fin n) (D : Fin n → P n)
    (ks : List (Fin n)) (hn : ks.Nodup) (acc : Matrix (Fin n) (Fin n) ℝ × P n)
    (hD : ∀ k s, (gradient (infoFn m k) none delta s).1 = D k) :
    (hessLoop m delta ks acc).1 x y = acc.1 x y + (if x ∈ ks then D x y / 2 else 0) + (if y ∈ ks then D y x / 2 else 0) := by
  induction ks generalizing acc with
  | nil => simp [hessLoop]
  | cons k ks ih =>
    rw [List.nodup_cons] at hn
    rw [hessLoop]
    rw [ih hn.2]
    have := addScore_apply k (gradient (infoFn m k) none delta acc.2).1 _ (List.nodup_finRange n) acc.1 x y
    rw [show ∀ (a : Matrix (Fin n) (Fin n) ℝ) (b : P n), (a, b).1 = a from fun _ _ => rfl, this, hD]
    by_cases hx : x = k <;> by_cases hy : y = k <;> simp_all <;> ring

theorem hessLoop_symm (m : Model n) (delta : ℝ) (ks : List (Fin n)) (acc : Matrix (Fin n) (Fin n) ℝ × P n)
    (h : ∀ x y, acc.1 x y = acc.1 y x) (x y : Fin n) :
    (hessLoop m delta ks acc).1 x y = (hessLoop m delta ks acc).1 y x := by
  induction ks generalizing acc with
  | nil => exact h x y
  | cons k ks ih =>
    rw [hessLoop]
    refine ih _ fun a b => ?_
    simp only
    rw [addScore_apply _ _ _ (List.nodup_finRange n), addScore_apply _ _ _ (List.nodup_finRange n), h a b]
    ring

/-- C120. The Hessian is symmetric, for any model whatever. -/
theorem C120_hessian_symmetric (m : Model n) (delta : ℝ) (beta : P n) : (hessian m delta beta).1.IsSymm := by
  ext x y
  exact hessLoop_symm m delta _ _ (fun _ _ => rfl) y x

/-! ## Values don't depend on what the function does to the parameters -/

theorem central_fst {σ τ : Type} (f : Fn1 σ) (g : Fn1 τ) (h : ∀ b, (f b).1 = (g b).1) (x t : ℝ) :
    (central f x t).1 = (central g x t).1 := by
  simp [central, h]

theorem derivCentral_fst {σ τ : Type} (f : Fn1 σ) (g : Fn1 τ) (h : ∀ b, (f b).1 = (g b).1) (x t : ℝ) :
    (derivCentral f x t).1 = (derivCentral g x t).1 := by
  have hc := central_fst f g h x
  unfold derivCentral
  simp only [hc]
  split <;> rfl

theorem gradient_fst (F : Fn n) (phi : P n → ℝ) (h : ∀ s, (F s).1 = phi s) (delta : ℝ) (beta : P n) :
    (gradient F none delta beta).1 = (gradient (quiet phi) none delta beta).1 := by
  funext j
  rw [gradient_out, gradient_out]
  exact derivCentral_fst _ _ (fun b => by simp [oneD, constrain, quiet, h]) _ _

/-- A score linear in the parameters, with coefficients `H`. -/
def linScore (g : P n) (H : Matrix (Fin n) (Fin n) ℝ) : P n → P n := fun s => g + H *ᵥ s

/-- A quadratic log likelihood, with second derivatives `H`. -/
noncomputable def quadratic (p : ℝ) (g : P n) (H : Matrix (Fin n) (Fin n) ℝ) : P n → ℝ :=
  fun s => p + g ⬝ᵥ s + (s ⬝ᵥ H *ᵥ s) / 2

theorem update_eq (beta : P n) (j : Fin n) (t : ℝ) :
    Function.update beta j (beta j + t) = beta + t • Pi.single j (1 : ℝ) := by
  funext i
  by_cases h : i = j
  · subst h; simp
  · simp [h]

theorem grad_lin (g : P n) (H : Matrix (Fin n) (Fin n) ℝ) (k : Fin n) {delta : ℝ} (hd : delta ≠ 0) (beta : P n) (j : Fin n) :
    (gradient (quiet fun s => linScore g H s k) none delta beta).1 j = H k j := by
  refine C119_gradient_exact (p := linScore g H beta k) (q := 0) (s := 0) (u := 0) _ none beta hd (fun _ _ _ => rfl) j fun t => ?_
  rw [update_eq]
  simp [linScore, mulVec_add, mulVec_smul]
  ring

theorem grad_quad (p : ℝ) (g : P n) {H : Matrix (Fin n) (Fin n) ℝ} (hH : H.IsSymm) {c : Option (Cn n)} (hc : ∀ s, constrain c s = (0, s))
    {delta : ℝ} (hd : delta ≠ 0) (beta : P n) :
    (gradient (quiet (quadratic p g H)) c delta beta).1 = linScore g H beta := by
  funext j
  refine C119_gradient_exact (p := quadratic p g H beta) (q := H j j / 2) (s := 0) (u := 0) _ c beta hd (fun _ _ _ => hc _) j fun t => ?_
  rw [update_eq]
  have h1 : Pi.single j (1 : ℝ) ⬝ᵥ H *ᵥ beta = (H *ᵥ beta) j := by simp
  have h2 : beta ⬝ᵥ H *ᵥ Pi.single j (1 : ℝ) = (H *ᵥ beta) j := by
    rw [dotProduct_mulVec, ← mulVec_transpose, hH.eq]
    simp
  have h3 : Pi.single j (1 : ℝ) ⬝ᵥ H *ᵥ Pi.single j (1 : ℝ) = H j j := by simp
  have h4 : g ⬝ᵥ Pi.single j (1 : ℝ) = g j := by simp
  simp only [quadratic, linScore, mulVec_add, mulVec_smul, dotProduct_add, add_dotProduct, smul_dotProduct, dotProduct_smul,
    smul_eq_mul, h1, h2, h3, h4, Pi.add_apply]
  ring

/-- The model's derivatives are those of a quadratic log likelihood: through its score if it has one,
otherwise through the log likelihood (with a nonzero step, and no binding constraint). -/
def Quadratic (m : Model n) (H : Matrix (Fin n) (Fin n) ℝ) : Prop :=
  H.IsSymm ∧ ((∃ g, m.score = some (linScore g H)) ∨
    (m.score = none ∧ m.delta ≠ 0 ∧ (∀ s, constrain m.c s = (0, s)) ∧ ∃ p g, m.f = quadratic p g H))

theorem info_quad {m : Model n} {H : Matrix (Fin n) (Fin n) ℝ} (hm : Quadratic m H) {delta : ℝ} (hd : delta ≠ 0) (k : Fin n) (s : P n) :
    (gradient (infoFn m k) none delta s).1 = H k := by
  funext j
  obtain ⟨hH, ⟨g, hg⟩ | ⟨h1, h2, h3, p, g, h4⟩⟩ := hm
  · rw [gradient_fst _ (fun s => linScore g H s k) (fun s => by simp [infoFn, hg]), grad_lin g H k hd]
  · rw [gradient_fst _ (fun s => linScore g H s k) (fun s => by
      simp only [infoFn, h1, h4]; rw [grad_quad p g hH h3 h2]), grad_lin g H k hd]

/-- C120. For a quadratic log likelihood the Hessian is exact, with or without a score function,
whatever the (nonzero) steps, and in spite of the parameters moving during the calculation. -/
theorem C120_hessian_exact (m : Model n) (H : Matrix (Fin n) (Fin n) ℝ) (hm : Quadratic m H) {delta : ℝ} (hd : delta ≠ 0) (beta : P n) :
    (hessian m delta beta).1 = H := by
  ext x y
  unfold hessian
  rw [hessLoop_apply m delta x y H _ (List.nodup_finRange n) _ (fun k s => info_quad hm hd k s)]
  have : H y x = H x y := hm.1.apply x y
  simp [this]

/-! ## Where the parameters end up -/

/-- `F` leaves all parameters but the last alone, and adds between zero and `D` to the last. -/
def Drifts (D : ℝ) (F : Fn (n + 1)) : Prop :=
  ∀ s, (∀ i, i ≠ Fin.last n → (F s).2 i = s i) ∧ s (Fin.last n) ≤ (F s).2 (Fin.last n) ∧ (F s).2 (Fin.last n) ≤ s (Fin.last n) + D

theorem gradient_drifts {D : ℝ} {F : Fn (n + 1)} (hF : Drifts D F) {c : Option (Cn (n + 1))} (hc : ∀ s, constrain c s = (0, s))
    {delta : ℝ} (hd : 0 < delta) (beta : P (n + 1)) :
    (∀ i, i ≠ Fin.last n → (gradient F c delta beta).2 i = beta i) ∧
      beta (Fin.last n) < (gradient F c delta beta).2 (Fin.last n) ∧
      (gradient F c delta beta).2 (Fin.last n) ≤ beta (Fin.last n) + (delta / 2 + D) := by
  rw [gradient_state]
  obtain ⟨h₁, h₂, _, ⟨_, k2⟩, k3, he⟩ := derivCentral_cases (oneD F c beta (Fin.last n)) (beta (Fin.last n)) hd.ne'
  have hp := (k3 hd).2
  rw [abs_of_pos hp, abs_of_pos hd] at k2
  rw [he]
  obtain ⟨a, b, d⟩ := hF (Function.update beta (Fin.last n) (beta (Fin.last n) + h₂ / 2))
  simp only [oneD, hc]
  refine ⟨fun i hi => ?_, ?_, ?_⟩
  · rw [a i hi]; simp [hi]
  · simp at b; linarith
  · simp at d; linarith

theorem infoFn_drifts (m : Model (n + 1)) (hc : ∀ s, constrain m.c s = (0, s)) (hd : 0 < m.delta) (k : Fin (n + 1)) :
    Drifts (m.delta / 2) (infoFn m k) := by
  intro s
  unfold infoFn
  cases m.score with
  | some g =>
    exact ⟨fun _ _ => rfl, le_refl _, show s (Fin.last n) ≤ s (Fin.last n) + m.delta / 2 by linarith⟩
  | none =>
    obtain ⟨a, b, d⟩ := gradient_drifts (D := 0) (F := quiet m.f) (fun s => ⟨fun _ _ => rfl, le_refl _, by simp [quiet]⟩) hc hd s
    exact ⟨a, b.le, by linarith⟩

theorem hessLoop_state (m : Model (n + 1)) (hc : ∀ s, constrain m.c s = (0, s)) (hm : 0 < m.delta) {delta : ℝ} (hd : 0 < delta)
    (ks : List (Fin (n + 1))) (acc : Matrix (Fin (n + 1)) (Fin (n + 1)) ℝ × P (n + 1)) :
    (∀ i, i ≠ Fin.last n → (hessLoop m delta ks acc).2 i = acc.2 i) ∧
      (ks ≠ [] → acc.2 (Fin.last n) < (hessLoop m delta ks acc).2 (Fin.last n)) ∧
      acc.2 (Fin.last n) ≤ (hessLoop m delta ks acc).2 (Fin.last n) ∧
      (hessLoop m delta ks acc).2 (Fin.last n) ≤ acc.2 (Fin.last n) + ks.length * ((delta + m.delta) / 2) := by
  induction ks generalizing acc with
  | nil => simp [hessLoop]
  | cons k ks ih =>
    obtain ⟨a, b, d⟩ := gradient_drifts (infoFn_drifts m hc hm k) (c := none) (fun _ => rfl) hd acc.2
    obtain ⟨i1, _, i3, i4⟩ := ih (addScore k (gradient (infoFn m k) none delta acc.2).1 (List.finRange (n + 1)) acc.1, (gradient (infoFn m k) none delta acc.2).2)
    rw [hessLoop]
    refine ⟨fun i hi => (i1 i hi).trans (a i hi), fun _ => lt_of_lt_of_le b i3, b.le.trans i3, i4.trans ?_⟩
    simp only [List.length_cons, Nat.cast_add, Nat.cast_one]
    linarith

/-- C120. Every parameter but the last is as it was. -/
theorem C120_hessian_keeps_others (m : Model (n + 1)) (hc : ∀ s, constrain m.c s = (0, s)) (hm : 0 < m.delta) {delta : ℝ} (hd : 0 < delta)
    (beta : P (n + 1)) (i : Fin (n + 1)) (hi : i ≠ Fin.last n) : (hessian m delta beta).2 i = beta i :=
  (hessLoop_state m hc hm hd _ _).1 i hi

/-- C120 (refutation of "the estimate is left alone"). Asking for the Hessian moves the model's last
parameter: it grows, by at most half of the two steps for each parameter. -/
theorem C120_hessian_moves_last_refuted (m : Model (n + 1)) (hc : ∀ s, constrain m.c s = (0, s)) (hm : 0 < m.delta) {delta : ℝ} (hd : 0 < delta)
    (beta : P (n + 1)) :
    beta (Fin.last n) < (hessian m delta beta).2 (Fin.last n) ∧
      (hessian m delta beta).2 (Fin.last n) ≤ beta (Fin.last n) + (n + 1) * ((delta + m.delta) / 2) := by
  obtain ⟨_, b, _, d⟩ := hessLoop_state m hc hm hd (List.finRange (n + 1)) (0, beta)
  refine ⟨b (by simp), d.trans ?_⟩
  simp

/-! ## Covariance -/

/-- GSL's LU inverse: none of a singular matrix. -/
noncomputable def inverse (M : Matrix (Fin n) (Fin n) ℝ) : Option (Matrix (Fin n) (Fin n) ℝ) :=
  open Classical in if M.det = 0 then none else some M⁻¹

/-- The result: the matrix returned, its row and column names, the `<Covariance>` page of the
model's parameters, and the parameters. -/
structure Cov (n : ℕ) where
  out : Matrix (Fin n) (Fin n) ℝ
  rows : List String
  cols : List String
  page : Matrix (Fin n) (Fin n) ℝ
  params : P n

/-- `apop_model_numerical_covariance`, apop_mle.m4.c:239-265 (and the names part of the Hessian,
221-224). `names`: row names of the parameters; `page`: its `<Covariance>` page so far. With a
singular Hessian `apop_matrix_inverse` gives NULL, which `gsl_matrix_scale` dereferences. -/
noncomputable def covariance (m : Model n) (delta : ℝ) (beta : P n) (names : List String) (page : Option (Matrix (Fin n) (Fin n) ℝ)) : Res (Cov n) :=
  match inverse (hessian m delta beta).1 with
  | none => .ub
  | some I => .ok ⟨(-1 : ℝ) • I, names, names, page.getD ((-1 : ℝ) • I), (hessian m delta beta).2⟩

/-- C121. For a quadratic log likelihood with invertible second derivatives `H`, the covariance is
the inverse of `-H` exactly; both dimensions carry the parameters' names; the model's covariance page
becomes it if there was none, and stays what it was otherwise. -/
theorem C121_covariance (m : Model n) (H : Matrix (Fin n) (Fin n) ℝ) (hm : Quadratic m H) (hdet : H.det ≠ 0) {delta : ℝ} (hd : delta ≠ 0)
    (beta : P n) (names : List String) (page : Option (Matrix (Fin n) (Fin n) ℝ)) :
    ∃ r, covariance m delta beta names page = .ok r ∧ r.out * (-H) = 1 ∧ (-H) * r.out = 1 ∧ r.out.IsSymm ∧
      r.rows = names ∧ r.cols = names ∧
      (page = none → r.page = r.out) ∧ (∀ q, page = some q → r.page = q) := by
  unfold covariance
  rw [C120_hessian_exact m H hm hd]
  have hu : IsUnit H.det := isUnit_iff_ne_zero.2 hdet
  simp only [inverse, hdet, if_false]
  refine ⟨_, rfl, ?_, ?_, ?_, rfl, rfl, ?_, ?_⟩
  · simp [Matrix.nonsing_inv_mul _ hu]
  · simp [Matrix.mul_nonsing_inv _ hu]
  · have : (H⁻¹).IsSymm := by
      unfold Matrix.IsSymm
      rw [Matrix.transpose_nonsing_inv, hm.1.eq]
    exact this.smul _
  · rintro rfl; rfl
  · rintro q rfl; rfl

/-- C121. At a strict maximum (`-H` positive definite) the covariance is positive definite: variances
are positive. -/
theorem C121_covariance_posdef (m : Model n) (H : Matrix (Fin n) (Fin n) ℝ) (hm : Quadratic m H) (hp : (-H).PosDef) {delta : ℝ} (hd : delta ≠ 0)
    (beta : P n) (names : List String) (page : Option (Matrix (Fin n) (Fin n) ℝ)) :
    ∃ r, covariance m delta beta names page = .ok r ∧ r.out.PosDef := by
  have hdet : H.det ≠ 0 := by
    have := (Matrix.isUnit_iff_isUnit_det _).1 hp.isUnit
    intro h0
    rw [Matrix.det_neg, h0, mul_zero] at this
    exact not_isUnit_zero this
  obtain ⟨r, h1, h2, _⟩ := C121_covariance m H hm hdet hd beta names page
  refine ⟨r, h1, ?_⟩
  have : r.out = (-H)⁻¹ := (Matrix.inv_eq_left_inv h2).symm
  rw [this]
  exact hp.inv

/-- C121 (refutation). Where the second derivatives are singular (a flat direction), the call is
undefined behaviour instead of an error. -/
theorem C121_singular_refuted (m : Model n) (H : Matrix (Fin n) (Fin n) ℝ) (hm : Quadratic m H) (hdet : H.det = 0) {delta : ℝ} (hd : delta ≠ 0)
    (beta : P n) (names : List String) (page : Option (Matrix (Fin n) (Fin n) ℝ)) :
    covariance m delta beta names page = .ub := by
  unfold covariance
  rw [C120_hessian_exact m H hm hd]
  simp [inverse, hdet]

/-! ## Nonvacuity -/

/-- A two-parameter model: log likelihood `x - x² - y²/2 + xy/2` with no score. -/
noncomputable def sample : Model 2 := ⟨quadratic 0 ![1, 0] !![-2, 1/2; 1/2, -1], none, none, 1 / 1000⟩

theorem sample_quadratic : Quadratic sample !![-2, 1/2; 1/2, -1] :=
  ⟨by ext i j; fin_cases i <;> fin_cases j <;> rfl,
    Or.inr ⟨rfl, by norm_num [sample], fun _ => rfl, 0, ![1, 0], rfl⟩⟩

example : (hessian sample (1 / 1000) ![1, 1]).1 = !![-2, 1/2; 1/2, -1] :=
  C120_hessian_exact sample _ sample_quadratic (by norm_num) _

example : ∃ r, covariance sample (1 / 1000) ![1, 1] ["a", "b"] none = .ok r ∧ r.rows = ["a", "b"] :=
  let ⟨r, h, _, _, _, h2, _⟩ := C121_covariance sample _ sample_quadratic (by norm_num [Matrix.det_fin_two]) (delta := 1 / 1000) (by norm_num) ![1, 1] ["a", "b"] none
  ⟨r, h, h2⟩

example : (1 : ℝ) < (hessian sample (1 / 1000) ![1, 1]).2 (Fin.last 1) := by
  have := (C120_hessian_moves_last_refuted (n := 1) sample (fun _ => rfl) (by norm_num [sample]) (delta := 1 / 1000) (by norm_num) ![1, 1]).1
  simpa using this

/-- A flat direction: the likelihood depends on the first parameter only. -/
noncomputable def flat : Model 2 := ⟨quadratic 0 0 !![-1, 0; 0, 0], none, none, 1 / 1000⟩

example : covariance flat (1 / 1000) ![0, 0] [] none = .ub :=
  C121_singular_refuted flat !![-1, 0; 0, 0] ⟨by ext i j; fin_cases i <;> fin_cases j <;> rfl,
    Or.inr ⟨rfl, by norm_num [flat], fun _ => rfl, 0, 0, rfl⟩⟩ (by norm_num [Matrix.det_fin_two]) (by norm_num) _ _ _

end Apop.Mle
