import Mathlib.Analysis.SpecialFunctions.Pow.Real
import Mathlib.Analysis.Calculus.Deriv.Basic
import Mathlib.Analysis.Calculus.Deriv.Mul
import Mathlib.Analysis.Calculus.Deriv.Pow
import Mathlib.Tactic.Linarith
import Mathlib.Tactic.Ring
import Mathlib.Tactic.FieldSimp
import Mathlib.Tactic.Positivity

/-! # The numerical gradient (apop_mle.m4.c:78-150)

Exact real arithmetic. A model's parameters are their packed vector `Fin n → ℝ` (packing and
unpacking a parameter set are inverse to each other: C21). Functions of the model's parameters may
change those parameters, so each evaluation is `P → ℝ × P`: value, parameters afterwards. -/

namespace Apop.Mle

variable {n : ℕ}

/-- The packed parameters. -/
abbrev P (n : ℕ) := Fin n → ℝ

/-- A likelihood, given the model's current parameters: the value, and what it leaves as the
parameters. -/
abbrev Fn (n : ℕ) := P n → ℝ × P n

/-- A constraint function: penalty, and the (possibly nudged) parameters. -/
abbrev Cn (n : ℕ) := P n → ℝ × P n

/-- `GSL_DBL_EPSILON`. -/
noncomputable def eps : ℝ := 2⁻¹ ^ 52

/-- What one pass of GSL's `central_deriv` reports. -/
structure Pass where
  r : ℝ
  round : ℝ
  trunc : ℝ

/-- GSL deriv.c `central_deriv`: the five-point rule, from the values at `x-h`, `x+h`, `x-h/2`,
`x+h/2`. -/
noncomputable def pass (fm1 fp1 fmh fph x h : ℝ) : Pass :=
  let r3 := (fp1 - fm1) / 2
  let r5 := 4 / 3 * (fph - fmh) - 1 / 3 * r3
  let e3 := (|fp1| + |fm1|) * eps
  let e5 := 2 * (|fph| + |fmh|) * eps + e3
  let dy := max |r3 / h| |r5 / h| * (|x| / h) * eps
  ⟨r5 / h, |e5 / h| + dy, |(r5 - r3) / h|⟩

/-- A one-dimensional function with a state: value at a point, state left behind. -/
abbrev Fn1 (σ : Type) := ℝ → ℝ × σ

variable {σ : Type}

/-- `central_deriv`: four calls; the state left is the one the last call leaves. -/
noncomputable def central (f : Fn1 σ) (x h : ℝ) : Pass × σ :=
  (pass (f (x - h)).1 (f (x + h)).1 (f (x - h / 2)).1 (f (x + h / 2)).1 x h, (f (x + h / 2)).2)

/-- The step of the second pass: `h * pow(round/(2*trunc), 1/3)`. -/
noncomputable def hopt (h : ℝ) (p : Pass) : ℝ := h * (p.round / (2 * p.trunc)) ^ (1 / 3 : ℝ)

/-- GSL `gsl_deriv_central`: a pass, and, when the rounding error estimate is below the truncation
error estimate, a second pass with the better step, kept if its error estimate is smaller and it
agrees with the first. -/
noncomputable def derivCentral (f : Fn1 σ) (x h : ℝ) : ℝ × σ :=
  let a := central f x h
  open Classical in
  if a.1.round < a.1.trunc ∧ 0 < a.1.round ∧ 0 < a.1.trunc then
    let b := central f x (hopt h a.1)
    (if b.1.round + b.1.trunc < a.1.round + a.1.trunc ∧ |b.1.r - a.1.r| < 4 * (a.1.round + a.1.trunc)
      then b.1.r else a.1.r, b.2)
  else (a.1.r, a.2)

/-- The constraint as `one_d` calls it, apop_mle.m4.c:83-84 (no penalty without one). -/
def constrain (c : Option (Cn n)) (s : P n) : ℝ × P n :=
  match c with
  | some k => k s
  | none => (0, s)

/-- `one_d`, apop_mle.m4.c:78-86: set the coordinate, unpack into the model's parameters, apply the
constraint, evaluate, and add the penalty. -/
def oneD (f : Fn n) (c : Option (Cn n)) (beta : P n) (j : Fin n) : Fn1 (P n) := fun b =>
  let q := constrain c (Function.update beta j b)
  ((f q.2).1 + q.1, (f q.2).2)

/-- The loop of `apop_internal_numerical_gradient`, apop_mle.m4.c:101-106; `acc`: output vector and
current parameters. -/
noncomputable def gradLoop (f : Fn n) (c : Option (Cn n)) (delta : ℝ) (beta : P n) :
    List (Fin n) → P n × P n → P n × P n
  | [], acc => acc
  | j :: js, acc =>
    let d := derivCentral (oneD f c beta j) (beta j) delta
    gradLoop f c delta beta js (Function.update acc.1 j d.1, d.2)

/-- `apop_numerical_gradient`, apop_mle.m4.c:126-141 with 92-108: the gradient, and the model's
parameters afterwards. `beta` is packed from the model's parameters at the start. Simplified: one
page of parameters (the output vector has room only for the first page). -/
noncomputable def gradient (f : Fn n) (c : Option (Cn n)) (delta : ℝ) (beta : P n) : P n × P n :=
  gradLoop f c delta beta (List.finRange n) (0, beta)

/-! ## Specification -/

/-- `f` as a function of the `j`th parameter alone. -/
def slice (f : P n → ℝ) (beta : P n) (j : Fin n) : ℝ → ℝ := fun b => f (Function.update beta j b)

/-- A likelihood that doesn't touch the parameters. -/
def quiet (f : P n → ℝ) : Fn n := fun s => (f s, s)

/-- Within `r` of `x`, `g` differs from a fourth-degree polynomial with slope `a` at `x` by at most
`M |t|⁵` (Taylor's theorem: `M` is a bound on the fifth derivative over 120; `M = 0` for
polynomials of degree up to four). -/
def NearQuartic (g : ℝ → ℝ) (x r a M : ℝ) : Prop :=
  ∃ p q s u : ℝ, ∀ t, |t| ≤ r → |g (x + t) - (p + a * t + q * t ^ 2 + s * t ^ 3 + u * t ^ 4)| ≤ M * |t| ^ 5

/-! ## Facts about the rule -/

theorem pass_r (fm1 fp1 fmh fph x h : ℝ) :
    (pass fm1 fp1 fmh fph x h).r = (4 / 3 * (fph - fmh) - 1 / 3 * ((fp1 - fm1) / 2)) / h := rfl

theorem hopt_ne {h : ℝ} (hh : h ≠ 0) {p : Pass} (h1 : 0 < p.round) (h2 : 0 < p.trunc) :
    hopt h p ≠ 0 := by
  unfold hopt
  have : 0 < (p.round / (2 * p.trunc)) ^ (1 / 3 : ℝ) := Real.rpow_pos_of_pos (by positivity) _
  exact mul_ne_zero hh this.ne'

theorem hopt_le {h : ℝ} {p : Pass} (h0 : p.round < p.trunc) (h1 : 0 < p.round) (h2 : 0 < p.trunc) :
    |hopt h p| ≤ |h| := by
  unfold hopt
  have h3 : p.round / (2 * p.trunc) ≤ 1 := by rw [div_le_one (by positivity)]; linarith
  have h4 : (p.round / (2 * p.trunc)) ^ (1 / 3 : ℝ) ≤ 1 := Real.rpow_le_one (by positivity) h3 (by norm_num)
  have h5 : 0 ≤ (p.round / (2 * p.trunc)) ^ (1 / 3 : ℝ) := Real.rpow_nonneg (by positivity) _
  rw [abs_mul, abs_of_nonneg h5]
  exact mul_le_of_le_one_right (abs_nonneg _) h4

theorem hopt_pos {h : ℝ} (hh : 0 < h) {p : Pass} (h1 : 0 < p.round) (h2 : 0 < p.trunc) :
    0 < hopt h p := by
  unfold hopt
  have : 0 < (p.round / (2 * p.trunc)) ^ (1 / 3 : ℝ) := Real.rpow_pos_of_pos (by positivity) _
  exact mul_pos hh this

/-- Whatever branch is taken: the value is that of a pass with some step no bigger than `h`, the
state is the one left by evaluating at `x + h'/2` for such a step. -/
theorem derivCentral_cases (f : Fn1 σ) (x : ℝ) {h : ℝ} (hh : h ≠ 0) :
    ∃ h₁ h₂ : ℝ, (h₁ ≠ 0 ∧ |h₁| ≤ |h|) ∧ (h₂ ≠ 0 ∧ |h₂| ≤ |h|) ∧ (0 < h → 0 < h₁ ∧ 0 < h₂) ∧
      derivCentral f x h = ((central f x h₁).1.r, (f (x + h₂ / 2)).2) := by
  unfold derivCentral
  simp only
  split
  · rename_i hc
    obtain ⟨c0, c1, c2⟩ := hc
    have a1 := hopt_ne hh c1 c2
    have a2 := hopt_le (h := h) c0 c1 c2
    split
    · exact ⟨_, _, ⟨a1, a2⟩, ⟨a1, a2⟩, fun p => ⟨hopt_pos p c1 c2, hopt_pos p c1 c2⟩, rfl⟩
    · exact ⟨h, _, ⟨hh, le_refl _⟩, ⟨a1, a2⟩, fun p => ⟨p, hopt_pos p c1 c2⟩, rfl⟩
  · exact ⟨h, h, ⟨hh, le_refl _⟩, ⟨hh, le_refl _⟩, fun p => ⟨p, p⟩, rfl⟩

theorem five_point {g : ℝ → ℝ} {x r a M : ℝ} (hg : NearQuartic g x r a M) {h : ℝ} (h0 : h ≠ 0) (hr : |h| ≤ r) :
    |(4 / 3 * (g (x + h / 2) - g (x - h / 2)) - 1 / 3 * ((g (x + h) - g (x - h)) / 2)) / h - a| ≤ 5 / 12 * M * |h| ^ 4 := by
  obtain ⟨p, q, s, u, hT⟩ := hg
  have hp : 0 < |h| := abs_pos.2 h0
  have e1 := hT h hr
  have e2 := hT (-h) (by rwa [abs_neg])
  have half : |h / 2| = |h| / 2 := by rw [abs_div]; norm_num
  have e3 := hT (h / 2) (by rw [half]; linarith)
  have e4 := hT (-(h / 2)) (by rw [abs_neg, half]; linarith)
  rw [abs_neg] at e2 e4
  rw [half] at e3 e4
  rw [show x + -h = x - h by ring] at e2
  rw [show x + -(h / 2) = x - h / 2 by ring] at e4
  set F1 := g (x + h); set F2 := g (x - h); set F3 := g (x + h / 2); set F4 := g (x - h / 2)
  have key : (4 / 3 * (F3 - F4) - 1 / 3 * ((F1 - F2) / 2)) / h - a =
      (4 / 3 * ((F3 - (p + a * (h/2) + q * (h/2) ^ 2 + s * (h/2) ^ 3 + u * (h/2) ^ 4))
        - (F4 - (p + a * (-(h/2)) + q * (-(h/2)) ^ 2 + s * (-(h/2)) ^ 3 + u * (-(h/2)) ^ 4)))
      - 1 / 6 * ((F1 - (p + a * h + q * h ^ 2 + s * h ^ 3 + u * h ^ 4))
        - (F2 - (p + a * (-h) + q * (-h) ^ 2 + s * (-h) ^ 3 + u * (-h) ^ 4)))) / h := by
    field_simp
    ring
  rw [key, abs_div, div_le_iff₀ hp]
  rw [abs_le] at e1 e2 e3 e4 ⊢
  have : 5 / 12 * M * |h| ^ 4 * |h| = 4 / 3 * (2 * (M * (|h| / 2) ^ 5)) + 1 / 6 * (2 * (M * |h| ^ 5)) := by ring
  rw [this]
  constructor <;> linarith [e1.1, e1.2, e2.1, e2.2, e3.1, e3.2, e4.1, e4.2]

theorem near_mono {g : ℝ → ℝ} {x r r' a M : ℝ} (h : NearQuartic g x r a M) (hr : r' ≤ r) : NearQuartic g x r' a M := by
  obtain ⟨p, q, s, u, hT⟩ := h
  exact ⟨p, q, s, u, fun t ht => hT t (ht.trans hr)⟩

theorem gradLoop_out (f : Fn n) (c : Option (Cn n)) (delta : ℝ) (beta : P n) (js : List (Fin n)) (acc : P n × P n)
    (hn : js.Nodup) (j : Fin n) :
    (gradLoop f c delta beta js acc).1 j =
      if j ∈ js then (derivCentral (oneD f c beta j) (beta j) delta).1 else acc.1 j := by
  induction js generalizing acc with
  | nil => simp [gradLoop]
  | cons i is ih =>
    rw [List.nodup_cons] at hn
    rw [gradLoop, ih _ hn.2]
    by_cases hj : j = i
    · subst hj; simp [hn.1]
    · simp [hj]

theorem gradient_out (f : Fn n) (c : Option (Cn n)) (delta : ℝ) (beta : P n) (j : Fin n) :
    (gradient f c delta beta).1 j = (derivCentral (oneD f c beta j) (beta j) delta).1 := by
  unfold gradient
  rw [gradLoop_out _ _ _ _ _ _ (List.nodup_finRange n)]
  simp

theorem gradLoop_append (f : Fn n) (c : Option (Cn n)) (delta : ℝ) (beta : P n) (a b : List (Fin n)) (acc : P n × P n) :
    gradLoop f c delta beta (a ++ b) acc = gradLoop f c delta beta b (gradLoop f c delta beta a acc) := by
  induction a generalizing acc with
  | nil => rfl
  | cons i is ih => simp [gradLoop, ih]

theorem gradient_state (f : Fn (n + 1)) (c : Option (Cn (n + 1))) (delta : ℝ) (beta : P (n + 1)) :
    (gradient f c delta beta).2 = (derivCentral (oneD f c beta (Fin.last n)) (beta (Fin.last n)) delta).2 := by
  unfold gradient
  rw [List.finRange_succ_last, gradLoop_append]
  rfl

end Apop.Mle
