import Mathlib.Analysis.SpecialFunctions.Gamma.Deligne
import Mathlib.Analysis.SpecialFunctions.Gamma.Basic
import Mathlib.Analysis.SpecialFunctions.Pow.Real
import Mathlib.Tactic.Linarith
import Mathlib.Tactic.Ring
import Mathlib.Tactic.NormNum
import Mathlib.Tactic.Positivity

/-! # C166: apop_multivariate_gamma and apop_multivariate_lngamma (apop_stats.m4.c:788-807)

Exact arithmetic; `gsl_sf_gamma` and `gsl_sf_lngamma` are Γ and log|Γ|, and call GSL's error handler (by default, abort) at 0, -1, -2, .... The conversion to int is taken not to overflow. -/

namespace Apop.Linalg.MvGamma

open Real

/-- What a call does. -/
inductive Ret where
  | val (x : ℝ)
  | nan
  /-- GSL's error handler is called: domain error. -/
  | domain

/-- 0, -1, -2, ... -/
def Pole (x : ℝ) : Prop := ∃ n : ℕ, x = -(n : ℝ)

/-- The condition at apop_stats.m4.c:789 and :801: `(1-p)/2` is an integer division. -/
def Checked (a : ℝ) (p : ℕ) : Prop :=
  (∃ z : ℤ, -(a + ((1 - (p : ℤ)).tdiv 2 : ℤ)) = z) ∧ a + ((1 - (p : ℤ)).tdiv 2 : ℤ) ≤ 0

open Classical in
/-- The loop of apop_stats.m4.c:792-793, from `i`. -/
noncomputable def gammaLoop (a : ℝ) : ℕ → ℕ → ℝ → Ret
  | 0, _, f => .val f
  | k + 1, i, f => if Pole (a + (1 - (i : ℝ)) / 2) then .domain else gammaLoop a k (i + 1) (f * Gamma (a + (1 - (i : ℝ)) / 2))

open Classical in
/-- The loop of apop_stats.m4.c:803-804, from `i`. -/
noncomputable def lnLoop (a : ℝ) : ℕ → ℕ → ℝ → Ret
  | 0, _, s => .val s
  | k + 1, i, s => if Pole (a + (1 - (i : ℝ)) / 2) then .domain else lnLoop a k (i + 1) (s + log |Gamma (a + (1 - (i : ℝ)) / 2)|)

/-- The last multiplication, apop_stats.m4.c:794. -/
noncomputable def times (c : ℝ) : Ret → Ret
  | .val x => .val (c * x)
  | r => r

open Classical in
/-- `apop_multivariate_gamma`, apop_stats.m4.c:788-795. -/
noncomputable def mvGamma (a : ℝ) (p : ℕ) : Ret :=
  if Checked a p then .nan else times (π ^ ((p : ℝ) * (p - 1) / 4)) (gammaLoop a p 1 1)

open Classical in
/-- `apop_multivariate_lngamma`, apop_stats.m4.c:800-806. -/
noncomputable def mvLnGamma (a : ℝ) (p : ℕ) : Ret :=
  if Checked a p then .nan else lnLoop a p 1 (log π * p * (p - 1) / 4)

/-! ### Specification -/

/-- `Γ_p(a) = π^{p(p-1)/4} ∏_{j=1}^p Γ(a + (1-j)/2)`, as documented. -/
noncomputable def Spec (a : ℝ) (p : ℕ) : ℝ := π ^ ((p : ℝ) * (p - 1) / 4) * ∏ j ∈ Finset.Icc 1 p, Gamma (a + (1 - (j : ℝ)) / 2)

/-- One of the arguments of Γ is at a pole. -/
def Undefined (a : ℝ) (p : ℕ) : Prop := ∃ j : ℕ, 1 ≤ j ∧ j ≤ p ∧ Pole (a + (1 - (j : ℝ)) / 2)

/-! ### Proofs -/

theorem gammaLoop_eq (a : ℝ) : ∀ k i f, (∀ j : ℕ, i ≤ j → j < i + k → ¬ Pole (a + (1 - (j : ℝ)) / 2)) →
    gammaLoop a k i f = .val (f * ∏ j ∈ Finset.Ico i (i + k), Gamma (a + (1 - (j : ℝ)) / 2)) := by
  intro k
  induction k with
  | zero => intro i f _; simp [gammaLoop]
  | succ k ih =>
    intro i f h
    rw [gammaLoop, if_neg (h i le_rfl (by omega)), ih (i + 1) _ (fun j h1 h2 => h j (by omega) (by omega)), Finset.prod_eq_prod_Ico_succ_bot (by omega : i < i + (k + 1)), mul_assoc]
    congr 4
    congr 1
    omega

theorem gammaLoop_domain (a : ℝ) : ∀ k i f (j : ℕ), i ≤ j → j < i + k → Pole (a + (1 - (j : ℝ)) / 2) → gammaLoop a k i f = .domain := by
  intro k
  induction k with
  | zero => intro i f j h1 h2; omega
  | succ k ih =>
    intro i f j h1 h2 h3
    rw [gammaLoop]
    split
    · rfl
    · rename_i hn
      have : i ≠ j := fun hc => hn (hc ▸ h3)
      exact ih (i + 1) _ j (by omega) (by omega) h3

theorem lnLoop_eq (a : ℝ) : ∀ k i s, (∀ j : ℕ, i ≤ j → j < i + k → ¬ Pole (a + (1 - (j : ℝ)) / 2)) →
    lnLoop a k i s = .val (s + ∑ j ∈ Finset.Ico i (i + k), log |Gamma (a + (1 - (j : ℝ)) / 2)|) := by
  intro k
  induction k with
  | zero => intro i s _; simp [lnLoop]
  | succ k ih =>
    intro i s h
    rw [lnLoop, if_neg (h i le_rfl (by omega)), ih (i + 1) _ (fun j h1 h2 => h j (by omega) (by omega)), Finset.sum_eq_sum_Ico_succ_bot (by omega : i < i + (k + 1)), add_assoc]
    congr 4
    congr 1
    omega

theorem lnLoop_domain (a : ℝ) : ∀ k i s (j : ℕ), i ≤ j → j < i + k → Pole (a + (1 - (j : ℝ)) / 2) → lnLoop a k i s = .domain := by
  intro k
  induction k with
  | zero => intro i s j h1 h2; omega
  | succ k ih =>
    intro i s j h1 h2 h3
    rw [lnLoop]
    split
    · rfl
    · rename_i hn
      have : i ≠ j := fun hc => hn (hc ▸ h3)
      exact ih (i + 1) _ j (by omega) (by omega) h3

/-- The check finds exactly the poles at odd `j`. -/
theorem checked_iff (a : ℝ) (p : ℕ) (hp : 0 < p) : Checked a p ↔ ∃ j : ℕ, 1 ≤ j ∧ j ≤ p ∧ Odd j ∧ Pole (a + (1 - (j : ℝ)) / 2) := by
  have hdiv : ((1 - (p : ℤ)).tdiv 2 : ℤ) = -(((p - 1) / 2 : ℕ) : ℤ) := by
    have : (1 - (p : ℤ)) = -((p - 1 : ℕ) : ℤ) := by omega
    rw [this, Int.neg_tdiv]
    congr 1
  unfold Checked
  obtain ⟨H, hH⟩ : ∃ H, H = (p - 1) / 2 := ⟨_, rfl⟩
  rw [hdiv, ← hH]
  push_cast
  constructor
  · rintro ⟨⟨z, hz⟩, hle⟩
    refine ⟨2 * H + 1, by omega, by omega, ⟨_, rfl⟩, ?_⟩
    have h0 : 0 ≤ z := by
      have : (0 : ℝ) ≤ z := by rw [← hz]; linarith
      exact_mod_cast this
    refine ⟨z.toNat, ?_⟩
    have hz' : ((z.toNat : ℕ) : ℝ) = (z : ℝ) := by
      rw [← Int.cast_natCast, Int.toNat_of_nonneg h0]
    rw [hz', ← hz]
    push_cast
    ring
  · rintro ⟨j, h1, h2, ⟨q, rfl⟩, n, hn⟩
    push_cast at hn
    have hq : q ≤ H := by omega
    have e : a = (q : ℝ) - n := by linarith
    subst e
    constructor
    · refine ⟨(H : ℤ) - (q : ℤ) + n, ?_⟩
      push_cast
      ring
    · have : (q : ℝ) ≤ (H : ℝ) := by exact_mod_cast hq
      have hn0 : (0 : ℝ) ≤ n := by positivity
      linarith

theorem gamma_ne {x : ℝ} (h : ¬ Pole x) : Gamma x ≠ 0 := Real.Gamma_ne_zero fun m hm => h ⟨m, hm⟩

theorem ico_icc (p : ℕ) : Finset.Ico 1 (1 + p) = Finset.Icc 1 p := by
  ext j; simp; omega

/-- Where every Γ is defined, the documented product comes back, and its log from the other function. -/
theorem C166_value (a : ℝ) (p : ℕ) (hp : 0 < p) (h : ¬ Undefined a p) :
    mvGamma a p = .val (Spec a p) ∧ mvLnGamma a p = .val (log |Spec a p|) := by
  have hpole : ∀ j : ℕ, 1 ≤ j → j < 1 + p → ¬ Pole (a + (1 - (j : ℝ)) / 2) := fun j h1 h2 hc => h ⟨j, h1, by omega, hc⟩
  have hc : ¬ Checked a p := by
    rw [checked_iff a p hp]
    rintro ⟨j, h1, h2, _, h3⟩
    exact h ⟨j, h1, h2, h3⟩
  constructor
  · rw [mvGamma, if_neg hc, gammaLoop_eq a p 1 1 hpole, times, Spec, ico_icc, one_mul]
  · rw [mvLnGamma, if_neg hc, lnLoop_eq a p 1 _ hpole, Spec, abs_mul, Finset.abs_prod, log_mul, abs_of_pos (rpow_pos_of_pos pi_pos _), log_rpow pi_pos, log_prod, ico_icc]
    · congr 2
      ring
    · intro j hj
      rw [Finset.mem_Icc] at hj
      exact abs_ne_zero.2 (gamma_ne (hpole j hj.1 (by omega)))
    · exact abs_ne_zero.2 (rpow_pos_of_pos pi_pos _).ne'
    · rw [Finset.prod_ne_zero_iff]
      intro j hj
      rw [Finset.mem_Icc] at hj
      exact abs_ne_zero.2 (gamma_ne (hpole j hj.1 (by omega)))

/-- For `a > (p-1)/2` (where the statistics is) both are defined, the first is positive and the second its log. -/
theorem C166_positive (a : ℝ) (p : ℕ) (hp : 0 < p) (ha : ((p : ℝ) - 1) / 2 < a) :
    mvGamma a p = .val (Spec a p) ∧ 0 < Spec a p ∧ mvLnGamma a p = .val (log (Spec a p)) := by
  have hpos : ∀ j : ℕ, j ≤ p → 0 < a + (1 - (j : ℝ)) / 2 := by
    intro j hj
    have : (j : ℝ) ≤ p := by exact_mod_cast hj
    linarith
  have hu : ¬ Undefined a p := by
    rintro ⟨j, _, h2, n, hn⟩
    have := hpos j h2
    rw [hn] at this
    have hn0 : (0 : ℝ) ≤ n := by positivity
    linarith
  have hs : 0 < Spec a p := by
    apply mul_pos (rpow_pos_of_pos pi_pos _)
    apply Finset.prod_pos
    intro j hj
    rw [Finset.mem_Icc] at hj
    exact Gamma_pos_of_pos (hpos j hj.2)
  obtain ⟨h1, h2⟩ := C166_value a p hp hu
  refine ⟨h1, hs, ?_⟩
  rw [h2, abs_of_pos hs]

/-- With one dimension it is Γ, and one more dimension multiplies by `π^{p/2} Γ(a - p/2)`. -/
theorem C166_recursion (a : ℝ) (p : ℕ) : Spec a 1 = Gamma a ∧ Spec a (p + 1) = Spec a p * (π ^ ((p : ℝ) / 2) * Gamma (a - p / 2)) := by
  constructor
  · simp [Spec]
  · unfold Spec
    rw [Finset.prod_Icc_succ_top (by omega)]
    have e1 : (((p + 1 : ℕ) : ℝ) * ((p + 1 : ℕ) - 1) / 4) = (p : ℝ) * (p - 1) / 4 + p / 2 := by push_cast; ring
    have e2 : a + (1 - ((p + 1 : ℕ) : ℝ)) / 2 = a - p / 2 := by push_cast; ring
    rw [e1, e2, rpow_add pi_pos]
    ring

/-- NaN comes back exactly when Γ is undefined for an odd `j`. -/
theorem C166_nan (a : ℝ) (p : ℕ) (hp : 0 < p) :
    (mvGamma a p = .nan ↔ ∃ j : ℕ, 1 ≤ j ∧ j ≤ p ∧ Odd j ∧ Pole (a + (1 - (j : ℝ)) / 2)) ∧ (mvLnGamma a p = .nan ↔ mvGamma a p = .nan) := by
  have hg : mvGamma a p = .nan ↔ Checked a p := by
    constructor
    · intro h
      by_contra hc
      rw [mvGamma, if_neg hc] at h
      by_cases hu : Undefined a p
      · obtain ⟨j, h1, h2, h3⟩ := hu
        rw [gammaLoop_domain a p 1 1 j h1 (by omega) h3] at h
        cases h
      · rw [gammaLoop_eq a p 1 1 (fun j h1 h2 hc => hu ⟨j, h1, by omega, hc⟩)] at h
        cases h
    · intro h; rw [mvGamma, if_pos h]
  have hl : mvLnGamma a p = .nan ↔ Checked a p := by
    constructor
    · intro h
      by_contra hc
      rw [mvLnGamma, if_neg hc] at h
      by_cases hu : Undefined a p
      · obtain ⟨j, h1, h2, h3⟩ := hu
        rw [lnLoop_domain a p 1 _ j h1 (by omega) h3] at h
        cases h
      · rw [lnLoop_eq a p 1 _ (fun j h1 h2 hc => hu ⟨j, h1, by omega, hc⟩)] at h
        cases h
    · intro h; rw [mvLnGamma, if_pos h]
  exact ⟨hg.trans (checked_iff a p hp), hl.trans hg.symm⟩

/-- The documented NaN does not come for the other poles: whenever Γ is undefined for an even `j`, GSL's error handler is called instead. -/
theorem C166_even_refuted (a : ℝ) (p j : ℕ) (h1 : 1 ≤ j) (h2 : j ≤ p) (he : Even j) (h3 : Pole (a + (1 - (j : ℝ)) / 2)) :
    mvGamma a p = .domain ∧ mvLnGamma a p = .domain := by
  have hc : ¬ Checked a p := by
    rw [checked_iff a p (by omega)]
    rintro ⟨i, _, _, ⟨q, rfl⟩, m, hm⟩
    obtain ⟨r, rfl⟩ := he
    obtain ⟨n, hn⟩ := h3
    push_cast at hm hn
    have : ((q : ℤ) - m) * 2 + 1 = 2 * ((r : ℤ) - n) := by
      have e1 : a = (q : ℝ) - m := by linarith
      have e2 : (((q : ℤ) - m) * 2 + 1 : ℤ) = ((2 * ((r : ℤ) - n) : ℤ) : ℝ) := by
        push_cast
        rw [e1] at hn
        linarith
      exact_mod_cast e2
    omega
  constructor
  · rw [mvGamma, if_neg hc, gammaLoop_domain a p 1 1 j h1 (by omega) h3]; rfl
  · rw [mvLnGamma, if_neg hc, lnLoop_domain a p 1 _ j h1 (by omega) h3]

/-- Cases: `a = 1/2` in two dimensions is such a pole, `a = 2` in two dimensions is defined. -/
example : Pole ((1 / 2 : ℝ) + (1 - ((2 : ℕ) : ℝ)) / 2) ∧ (((2 : ℕ) : ℝ) - 1) / 2 < (2 : ℝ) := ⟨⟨0, by norm_num⟩, by norm_num⟩

end Apop.Linalg.MvGamma
