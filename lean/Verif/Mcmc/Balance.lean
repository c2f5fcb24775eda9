import Verif.Mcmc.Chain
import Mathlib.MeasureTheory.Measure.Lebesgue.Basic
import Mathlib.Algebra.BigOperators.Fin
import Mathlib.Algebra.BigOperators.Field
import Mathlib.Analysis.SpecialFunctions.Exp

/-! # C72: the accept rule leaves the target distribution as it is

For a chain on finitely many states, with proposals that do not depend on the past (no adapting, no constraint). -/

namespace Apop.Mcmc
open Real MeasureTheory

/-- The probability that a proposal is accepted: the measure of the uniforms in [0, 1) with which the rule of apop_mcmc.m4.c:124 accepts. -/
noncomputable def acceptProb (llOld llNew : ℝ) : ℝ := (volume {u : ℝ | (0 ≤ u ∧ u < 1) ∧ Accepts (some llOld) llNew u}).toReal

/-- **C72 (acceptance).** The probability of acceptance is min(1, p(new)/p(old)). -/
theorem C72_accept (l l' : ℝ) : acceptProb l l' = min 1 (exp l' / exp l) := by
  unfold acceptProb
  rw [← exp_sub]
  by_cases h : 0 ≤ l' - l
  · have e : {u : ℝ | (0 ≤ u ∧ u < 1) ∧ Accepts (some l) l' u} = Set.Ico 0 1 := by
      ext u; simp [Accepts, h]
    rw [e, Real.volume_Ico, min_eq_left (one_le_exp h)]
    simp
  · have e : {u : ℝ | (0 ≤ u ∧ u < 1) ∧ Accepts (some l) l' u} = Set.Ico 0 (exp (l' - l)) := by
      have hlt : exp (l' - l) < 1 := Real.exp_lt_one_iff.2 (not_le.1 h)
      ext u
      simp only [Accepts, h, false_or, Set.mem_ofPred_eq, Set.mem_Ico]
      constructor
      · rintro ⟨⟨h0, -⟩, rfl | h1⟩
        · exact ⟨h0, exp_pos _⟩
        · rcases h0.lt_or_eq with h0' | rfl
          · exact ⟨h0, (log_lt_iff_lt_exp h0').1 h1⟩
          · exact ⟨h0, exp_pos _⟩
      · rintro ⟨h0, h1⟩
        refine ⟨⟨h0, h1.trans hlt⟩, ?_⟩
        rcases h0.lt_or_eq with h0' | rfl
        · exact Or.inr ((log_lt_iff_lt_exp h0').2 h1)
        · exact Or.inl rfl
    rw [e, Real.volume_Ico, min_eq_right (Real.exp_lt_one_iff.2 (not_le.1 h)).le, sub_zero]
    exact ENNReal.toReal_ofReal (exp_pos _).le

variable {S : Type} [Fintype S] [DecidableEq S]

/-- The chance to go from `x` to `y`, if `q x y` is the chance that `y` is proposed at `x`: what is rejected stays at `x`. -/
noncomputable def kernel (ll : S → ℝ) (q : S → S → ℝ) (x y : S) : ℝ :=
  if y = x then 1 - ∑ z ∈ Finset.univ.erase x, q x z * acceptProb (ll x) (ll z) else q x y * acceptProb (ll x) (ll y)

/-- **C72 (kernel).** The chances are chances: none is negative and they sum to one. -/
theorem C72_kernel (ll : S → ℝ) (q : S → S → ℝ) (hq : ∀ x y, 0 ≤ q x y) (h1 : ∀ x, ∑ y, q x y = 1) (x : S) : (∀ y, 0 ≤ kernel ll q x y) ∧ ∑ y, kernel ll q x y = 1 := by
  have ha : ∀ a b : ℝ, 0 ≤ acceptProb a b ∧ acceptProb a b ≤ 1 := by
    intro a b
    rw [C72_accept]
    exact ⟨le_min zero_le_one (by positivity), min_le_left _ _⟩
  have hs : ∑ z ∈ Finset.univ.erase x, q x z * acceptProb (ll x) (ll z) ≤ 1 := by
    calc ∑ z ∈ Finset.univ.erase x, q x z * acceptProb (ll x) (ll z) ≤ ∑ z ∈ Finset.univ.erase x, q x z :=
          Finset.sum_le_sum (fun z _ => mul_le_of_le_one_right (hq x z) (ha _ _).2)
      _ ≤ ∑ z, q x z := Finset.sum_le_sum_of_subset_of_nonneg (Finset.erase_subset _ _) (fun z _ _ => hq x z)
      _ = 1 := h1 x
  constructor
  · intro y
    unfold kernel
    split
    · linarith
    · exact mul_nonneg (hq x y) (ha _ _).1
  · rw [← Finset.add_sum_erase _ _ (Finset.mem_univ x)]
    have : ∑ y ∈ Finset.univ.erase x, kernel ll q x y = ∑ z ∈ Finset.univ.erase x, q x z * acceptProb (ll x) (ll z) := by
      apply Finset.sum_congr rfl
      intro y hy
      simp [kernel, Finset.ne_of_mem_erase hy]
    rw [this]
    simp [kernel]

/-- **C72 (detailed balance).** With proposals as likely there as back, each pair of states is in balance under the likelihood. -/
theorem C72_balance (ll : S → ℝ) (q : S → S → ℝ) (hsym : ∀ x y, q x y = q y x) (x y : S) : exp (ll x) * kernel ll q x y = exp (ll y) * kernel ll q y x := by
  by_cases h : y = x
  · subst h; rfl
  · have h' : ¬ x = y := fun e => h e.symm
    simp only [kernel, h, h', if_false, C72_accept, hsym y x]
    have e1 : exp (ll x) * min 1 (exp (ll y) / exp (ll x)) = min (exp (ll x)) (exp (ll y)) := by
      rw [mul_min_of_nonneg _ _ (exp_pos _).le, mul_one, mul_div_cancel₀ _ (exp_pos _).ne']
    have e2 : exp (ll y) * min 1 (exp (ll x) / exp (ll y)) = min (exp (ll x)) (exp (ll y)) := by
      rw [mul_min_of_nonneg _ _ (exp_pos _).le, mul_one, mul_div_cancel₀ _ (exp_pos _).ne', min_comm]
    calc exp (ll x) * (q x y * min 1 (exp (ll y) / exp (ll x))) = q x y * (exp (ll x) * min 1 (exp (ll y) / exp (ll x))) := by ring
      _ = q x y * (exp (ll y) * min 1 (exp (ll x) / exp (ll y))) := by rw [e1, e2]
      _ = exp (ll y) * (q x y * min 1 (exp (ll x) / exp (ll y))) := by ring

/-- **C72 (stationary).** The normalised likelihood is a stationary distribution: if the state has it, so has the next. -/
theorem C72_stationary (ll : S → ℝ) (q : S → S → ℝ) (hq : ∀ x y, 0 ≤ q x y) (h1 : ∀ x, ∑ y, q x y = 1) (hsym : ∀ x y, q x y = q y x) (y : S) :
    ∑ x, (exp (ll x) / ∑ z, exp (ll z)) * kernel ll q x y = exp (ll y) / ∑ z, exp (ll z) := by
  have : ∀ x, (exp (ll x) / ∑ z, exp (ll z)) * kernel ll q x y = (exp (ll y) / ∑ z, exp (ll z)) * kernel ll q y x := by
    intro x
    have := C72_balance ll q hsym x y
    rw [div_mul_eq_mul_div, div_mul_eq_mul_div, this]
  rw [Finset.sum_congr rfl (fun x _ => this x), ← Finset.mul_sum, (C72_kernel ll q hq h1 y).2, mul_one]

/-- Two states, a proposal that picks either: not a trivial chain. -/
example : ∃ (ll : Fin 2 → ℝ) (q : Fin 2 → Fin 2 → ℝ), (∀ x y, 0 ≤ q x y) ∧ (∀ x, ∑ y, q x y = 1) ∧ (∀ x y, q x y = q y x) ∧ kernel ll q 0 1 ≠ kernel ll q 1 0 := by
  refine ⟨![0, 1], fun _ _ => 1 / 2, fun _ _ => by norm_num, fun _ => by norm_num, fun _ _ => rfl, ?_⟩
  have h1 : (1 : ℝ) < exp 1 := by simp
  simp only [kernel, C72_accept]
  simp only [Fin.isValue, one_ne_zero, if_false, zero_ne_one, Matrix.cons_val_zero, Matrix.cons_val_one, exp_zero, div_one]
  rw [min_eq_left h1.le, min_eq_right (by rw [div_le_one (by positivity)]; exact h1.le)]
  intro h
  have : 1 / exp 1 < 1 := by rw [div_lt_one (by positivity)]; exact h1
  linarith

end Apop.Mcmc
