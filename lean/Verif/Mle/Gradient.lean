import Verif.Mle.Deriv

/-! # C119: what `apop_numerical_gradient` returns and what it leaves behind -/

namespace Apop.Mle

variable {n : ℕ}

/-- The slope in `NearQuartic` is the derivative. -/
theorem near_hasDeriv {g : ℝ → ℝ} {x r a M : ℝ} (hr : 0 < r) (h : NearQuartic g x r a M) : HasDerivAt g a x := by
  obtain ⟨p, q, s, u, hT⟩ := h
  have h0 : g x = p := by
    have := hT 0 (by simpa using hr.le)
    simp at this
    linarith [this]
  have hM : 0 ≤ M := by
    have := (abs_nonneg _).trans (hT r (by rw [abs_of_pos hr]))
    by_contra hneg
    have : M * |r| ^ 5 < 0 := mul_neg_of_neg_of_pos (not_le.1 hneg) (by positivity)
    linarith
  rw [hasDerivAt_iff_isLittleO_nhds_zero]
  rw [Asymptotics.isLittleO_iff]
  intro c hc
  set K := |q| + |s| + |u| + M with hK
  have hKn : 0 ≤ K := by positivity
  have hev : ∀ᶠ t : ℝ in nhds 0, |t| < min (min r 1) (c / (K + 1)) := by
    have : 0 < min (min r 1) (c / (K + 1)) := by positivity
    have := Metric.ball_mem_nhds (0 : ℝ) this
    filter_upwards [this] with t ht
    simpa [Metric.mem_ball, Real.dist_eq] using ht
  filter_upwards [hev] with t ht
  rw [lt_min_iff, lt_min_iff] at ht
  obtain ⟨⟨t1, t2⟩, t3⟩ := ht
  have b := hT t t1.le
  have e : g (x + t) - g x - t • a =
      (g (x + t) - (p + a * t + q * t ^ 2 + s * t ^ 3 + u * t ^ 4)) + (q * t ^ 2 + s * t ^ 3 + u * t ^ 4) := by
    rw [h0, smul_eq_mul]; ring
  rw [Real.norm_eq_abs, Real.norm_eq_abs, e]
  have ht0 := abs_nonneg t
  have p2 : |t| ^ 3 ≤ |t| ^ 2 := pow_le_pow_of_le_one ht0 t2.le (by norm_num)
  have p3 : |t| ^ 4 ≤ |t| ^ 2 := pow_le_pow_of_le_one ht0 t2.le (by norm_num)
  have p4 : |t| ^ 5 ≤ |t| ^ 2 := pow_le_pow_of_le_one ht0 t2.le (by norm_num)
  have q1 : |q * t ^ 2 + s * t ^ 3 + u * t ^ 4| ≤ |q| * |t| ^ 2 + |s| * |t| ^ 3 + |u| * |t| ^ 4 := by
    refine (abs_add_le _ _).trans (add_le_add ((abs_add_le _ _).trans (add_le_add ?_ ?_)) ?_) <;>
      rw [abs_mul, abs_pow]
  have q2 : |s| * |t| ^ 3 ≤ |s| * |t| ^ 2 := mul_le_mul_of_nonneg_left p2 (abs_nonneg _)
  have q3 : |u| * |t| ^ 4 ≤ |u| * |t| ^ 2 := mul_le_mul_of_nonneg_left p3 (abs_nonneg _)
  have q4 : M * |t| ^ 5 ≤ M * |t| ^ 2 := mul_le_mul_of_nonneg_left p4 hM
  have q5 : K * |t| ^ 2 ≤ c * |t| := by
    have : K * |t| ≤ c := by
      have h1 : |t| * (K + 1) < c := by rwa [lt_div_iff₀ (by positivity)] at t3
      nlinarith
    nlinarith
  refine (abs_add_le _ _).trans ?_
  have : K * |t| ^ 2 = |q| * |t| ^ 2 + |s| * |t| ^ 2 + |u| * |t| ^ 2 + M * |t| ^ 2 := by rw [hK]; ring
  linarith

/-- A constraint that neither penalises nor moves the parameters at the points the gradient visits:
those that differ from `beta` in one coordinate by at most `delta`. -/
def SilentNear (c : Option (Cn n)) (beta : P n) (delta : ℝ) : Prop :=
  ∀ (j : Fin n) (b : ℝ), |b - beta j| ≤ |delta| →
    constrain c (Function.update beta j b) = (0, Function.update beta j b)

theorem oneD_silent (f : P n → ℝ) {c : Option (Cn n)} {beta : P n} {delta : ℝ} (hc : SilentNear c beta delta) (j : Fin n)
    {b : ℝ} (hb : |b - beta j| ≤ |delta|) :
    oneD (quiet f) c beta j b = (slice f beta j b, Function.update beta j b) := by
  unfold oneD
  rw [hc j b hb]
  simp [quiet, slice]

theorem central_oneD (f : P n → ℝ) {c : Option (Cn n)} {beta : P n} {delta : ℝ} (hc : SilentNear c beta delta) (j : Fin n)
    {h : ℝ} (hh : |h| ≤ |delta|) :
    (central (oneD (quiet f) c beta j) (beta j) h).1.r =
      (4 / 3 * (slice f beta j (beta j + h / 2) - slice f beta j (beta j - h / 2))
        - 1 / 3 * ((slice f beta j (beta j + h) - slice f beta j (beta j - h)) / 2)) / h := by
  have half : |h / 2| ≤ |delta| := by
    rw [abs_div]; norm_num; linarith [abs_nonneg h]
  unfold central
  simp only [pass_r]
  rw [oneD_silent f hc j (by simpa using half), oneD_silent f hc j (by simpa using half),
    oneD_silent f hc j (by simpa using hh), oneD_silent f hc j (by simpa using hh)]

/-- C119. Each element of the gradient is within `5/12 M delta⁴` of the partial derivative, where
`M` bounds the fifth-order remainder along that parameter (whatever GSL's choice of step). -/
theorem C119_gradient_close (f : P n → ℝ) (c : Option (Cn n)) (beta : P n) {delta : ℝ} (hd : delta ≠ 0)
    (hc : SilentNear c beta delta) (j : Fin n) {a M : ℝ} (hM : 0 ≤ M)
    (hf : NearQuartic (slice f beta j) (beta j) |delta| a M) :
    HasDerivAt (slice f beta j) a (beta j) ∧
      |(gradient (quiet f) c delta beta).1 j - a| ≤ 5 / 12 * M * |delta| ^ 4 := by
  refine ⟨near_hasDeriv (abs_pos.2 hd) hf, ?_⟩
  rw [gradient_out]
  obtain ⟨h₁, h₂, ⟨k1, k2⟩, _, _, he⟩ := derivCentral_cases (oneD (quiet f) c beta j) (beta j) hd
  rw [he]
  simp only
  rw [central_oneD f hc j k2]
  refine (five_point (near_mono hf k2) k1 le_rfl).trans ?_
  have : |h₁| ^ 4 ≤ |delta| ^ 4 := pow_le_pow_left₀ (abs_nonneg _) k2 4
  have := mul_le_mul_of_nonneg_left this (show 0 ≤ 5 / 12 * M by positivity)
  exact this

/-- C119. For a likelihood that is a polynomial of degree at most four in each parameter, the
gradient is exact, with any step. -/
theorem C119_gradient_exact (f : P n → ℝ) (c : Option (Cn n)) (beta : P n) {delta : ℝ} (hd : delta ≠ 0)
    (hc : SilentNear c beta delta) (j : Fin n) {p a q s u : ℝ}
    (hf : ∀ t, f (Function.update beta j (beta j + t)) = p + a * t + q * t ^ 2 + s * t ^ 3 + u * t ^ 4) :
    (gradient (quiet f) c delta beta).1 j = a := by
  have := (C119_gradient_close f c beta hd hc j (a := a) (le_refl 0) ⟨p, q, s, u, fun t _ => by
    simp [slice, hf t]⟩).2
  simp only [mul_zero, zero_mul] at this
  exact sub_eq_zero.1 (abs_eq_zero.1 (le_antisymm this (abs_nonneg _)))

/-- C119. After the call every parameter but the last is what it was. -/
theorem C119_gradient_keeps_others (f : P (n + 1) → ℝ) (c : Option (Cn (n + 1))) (beta : P (n + 1)) {delta : ℝ} (hd : delta ≠ 0)
    (hc : SilentNear c beta delta) (j : Fin (n + 1)) (hj : j ≠ Fin.last n) :
    (gradient (quiet f) c delta beta).2 j = beta j := by
  rw [gradient_state]
  obtain ⟨h₁, h₂, _, ⟨_, k2⟩, _, he⟩ := derivCentral_cases (oneD (quiet f) c beta (Fin.last n)) (beta (Fin.last n)) hd
  rw [he]
  have half : |h₂ / 2| ≤ |delta| := by
    rw [abs_div]; norm_num; linarith [abs_nonneg h₂]
  simp only
  rw [oneD_silent f hc _ (by simpa using half)]
  simp [hj]

/-- C119 (refutation of "the model is unchanged"). With a positive step the last parameter of the
model is left changed: it has grown, by at most half of `delta`. -/
theorem C119_gradient_moves_last_refuted (f : P (n + 1) → ℝ) (c : Option (Cn (n + 1))) (beta : P (n + 1)) {delta : ℝ} (hd : 0 < delta)
    (hc : SilentNear c beta delta) :
    beta (Fin.last n) < (gradient (quiet f) c delta beta).2 (Fin.last n) ∧
      (gradient (quiet f) c delta beta).2 (Fin.last n) ≤ beta (Fin.last n) + delta / 2 := by
  rw [gradient_state]
  obtain ⟨h₁, h₂, _, ⟨_, k2⟩, k3, he⟩ := derivCentral_cases (oneD (quiet f) c beta (Fin.last n)) (beta (Fin.last n)) hd.ne'
  have hp := (k3 hd).2
  rw [abs_of_pos hp, abs_of_pos hd] at k2
  rw [he]
  simp only
  rw [oneD_silent f hc _ (by rw [add_sub_cancel_left, abs_of_pos (by positivity), abs_of_pos hd]; linarith)]
  simp
  constructor <;> linarith

/-- The objective the searches maximise: the likelihood at the constrained parameters, less the
penalty (apop_mle.m4.c:309, negated). -/
def objective (f : P n → ℝ) (c : Option (Cn n)) (s : P n) : ℝ := f (constrain c s).2 - (constrain c s).1

/-- A flat likelihood of one parameter, which must be at least zero. -/
noncomputable def nonneg : Cn 1 := fun s => if s 0 < 0 then (- s 0, fun _ => 0) else (0, s)

/-- C119 (refutation). Where the constraint binds, the penalty enters the gradient with the opposite
sign from the one it has in the objective: with the parameter at -1 and required to be nonnegative,
the objective rises with slope 1 towards the feasible region, and the gradient is -1. -/
theorem C119_penalty_sign_refuted :
    (∀ t, |t| < 1 → objective (fun _ => 0) (some nonneg) (fun _ : Fin 1 => -1 + t) = -1 + t) ∧
    (gradient (quiet fun _ => 0) (some nonneg) (1 / 1000) (fun _ : Fin 1 => -1)).1 0 = -1 := by
  constructor
  · intro t ht
    have : -1 + t < 0 := by linarith [(abs_lt.1 ht).2]
    simp [objective, constrain, nonneg, this]
  · rw [gradient_out]
    obtain ⟨h₁, h₂, ⟨k1, k2⟩, _, _, he⟩ :=
      derivCentral_cases (oneD (quiet fun _ => 0) (some nonneg) (fun _ : Fin 1 => -1) 0) (-1) (h := 1 / 1000) (by norm_num)
    rw [he]
    have ev : ∀ b : ℝ, b < 0 → (oneD (quiet fun _ => 0) (some nonneg) (fun _ : Fin 1 => -1) 0 b).1 = -b := by
      intro b hb
      simp [oneD, constrain, nonneg, quiet, hb]
    have k4 : |h₁| ≤ 1 / 1000 := by rwa [abs_of_pos (show (0 : ℝ) < 1 / 1000 by norm_num)] at k2
    rw [abs_le] at k4
    simp only [central, pass_r]
    rw [ev _ (by linarith [k4.2]), ev _ (by linarith [k4.1]), ev _ (by linarith [k4.2]), ev _ (by linarith [k4.1])]
    field_simp
    ring

/-- Nonvacuity: the log likelihood `-(x-3)²` of one parameter at 1: gradient 4, whatever the step;
the parameter is left above 1. -/
example : (gradient (quiet fun s : P 1 => -(s 0 - 3) ^ 2) none (1 / 1000) (fun _ => 1)).1 0 = 4 :=
  C119_gradient_exact (p := -4) (q := -1) (s := 0) (u := 0) _ none _ (by norm_num) (fun _ _ _ => rfl) 0 (fun t => by simp; ring)

example : (1 : ℝ) < (gradient (quiet fun s : P 1 => -(s 0 - 3) ^ 2) none (1 / 1000) (fun _ => 1)).2 0 :=
  (C119_gradient_moves_last_refuted _ none (fun _ => 1) (delta := 1 / 1000) (by norm_num) (fun _ _ _ => rfl)).1

end Apop.Mle
