import Verif.Base.C
import Mathlib.Data.Real.Basic
import Mathlib.Tactic.Linarith
import Mathlib.Tactic.NormNum

/-!
# C214: the draws of the beta distribution

The GSL's draws are a sequence of numbers; NaN is `none`. -/

namespace Apop.Dist.BetaDraw

/-- The test of the loop, model/apop_beta.c:96: `(0.0 < ans) && (GSL_DBL_EPSILON <= 1.0 - ans)`; false for NaN. -/
def inside : Option ℝ → Prop
  | none => False
  | some x => 0 < x ∧ 1 / 2 ^ 52 ≤ 1 - x

open Classical in
/-- `beta_rng`, model/apop_beta.c:90-99, when the GSL has given `i` numbers before: the draw, and how many it has given then. -/
noncomputable def draw (s : ℕ → Option ℝ) : ℕ → ℕ → Run (Option ℝ × ℕ)
  | 0, _ => .more
  | fuel + 1, i => if inside (s i) then .done (s i, i + 1) else draw s fuel (i + 1)

/-- `m` draws, one after the other. -/
noncomputable def draws (s : ℕ → Option ℝ) (fuel : ℕ) : ℕ → ℕ → Run (List (Option ℝ))
  | 0, _ => .done []
  | m + 1, i => do
    let x ← draw s fuel i
    let xs ← draws s fuel m x.2
    .done (x.1 :: xs)

/-! ## Specification -/

open Classical in
/-- Of the GSL's numbers `i`, ..., `i + n - 1`, those in (0, 1 - 2^-52]. -/
noncomputable def kept (s : ℕ → Option ℝ) (i n : ℕ) : List (Option ℝ) :=
  ((List.range' i n).map s).filter fun x => decide (∃ v, x = some v ∧ 0 < v ∧ v ≤ 1 - 1 / 2 ^ 52)

/-! ## Proofs -/

theorem inside_iff (x : Option ℝ) : inside x ↔ ∃ v, x = some v ∧ 0 < v ∧ v ≤ 1 - 1 / 2 ^ 52 := by
  cases x with
  | none => simp [inside]
  | some v =>
    simp only [inside, Option.some.injEq, exists_eq_left']
    constructor <;> rintro ⟨a, b⟩ <;> exact ⟨a, by linarith⟩

theorem kept_succ (s : ℕ → Option ℝ) (i n : ℕ) [Decidable (inside (s i))] : kept s i (n + 1) = (if inside (s i) then [s i] else []) ++ kept s (i + 1) n := by
  unfold kept
  rw [List.range'_succ, List.map_cons, List.filter_cons]
  by_cases h : inside (s i)
  · rw [if_pos (decide_eq_true ((inside_iff _).1 h)), if_pos h]
    rfl
  · rw [if_neg (fun e => h ((inside_iff _).2 (of_decide_eq_true e))), if_neg h]
    rfl

theorem draw_first (s : ℕ → Option ℝ) (i n : ℕ) (x : Option ℝ) (xs : List (Option ℝ)) (h : kept s i n = x :: xs) :
    ∃ d, d < n ∧ inside x ∧ kept s (i + d + 1) (n - d - 1) = xs ∧ ∀ fuel, d < fuel → draw s fuel i = .done (x, i + d + 1) := by
  classical
  induction n generalizing i with
  | zero => simp [kept] at h
  | succ n ih =>
    rw [kept_succ] at h
    by_cases hi : inside (s i)
    · rw [if_pos hi] at h
      simp only [List.cons_append, List.nil_append, List.cons.injEq] at h
      obtain ⟨rfl, h⟩ := h
      refine ⟨0, by omega, hi, by simpa using h, fun fuel hf => ?_⟩
      obtain ⟨f, rfl⟩ : ∃ f, fuel = f + 1 := ⟨fuel - 1, by omega⟩
      rw [draw, if_pos hi]
    · rw [if_neg hi, List.nil_append] at h
      obtain ⟨d, hd, hx, hk, hr⟩ := ih (i + 1) h
      refine ⟨d + 1, by omega, hx, ?_, fun fuel hf => ?_⟩
      · rw [← hk]
        congr 1 <;> omega
      · obtain ⟨f, rfl⟩ : ∃ f, fuel = f + 1 := ⟨fuel - 1, by omega⟩
        rw [draw, if_neg hi, hr f (by omega)]
        congr 2
        omega

/-- **C214, draws of the beta**: they are the GSL's draws above zero and at most 1 - 2^-52, all of them, in order. -/
theorem C214_beta_draws (s : ℕ → Option ℝ) (i n fuel : ℕ) (hf : n ≤ fuel) : draws s fuel (kept s i n).length i = .done (kept s i n) := by
  generalize hk : kept s i n = l
  induction l generalizing i n with
  | nil => rfl
  | cons x xs ih =>
    obtain ⟨d, hd, -, h2, h3⟩ := draw_first s i n x xs hk
    simp only [List.length_cons, draws, h3 fuel (by omega), Run.bind_done, ih (i + d + 1) (n - d - 1) (by omega) h2]

/-- With no such number, as for NaN parameters, a draw never returns. -/
theorem C214_beta_never_refuted (s : ℕ → Option ℝ) (h : ∀ i v, s i = some v → ¬(0 < v ∧ v ≤ 1 - 1 / 2 ^ 52)) (i fuel : ℕ) : draw s fuel i = .more := by
  induction fuel generalizing i with
  | zero => rfl
  | succ f ih =>
    rw [draw, if_neg, ih]
    rw [inside_iff]
    rintro ⟨v, e, hv⟩
    exact h i v e hv

/-- A sequence that has numbers kept and not kept. -/
example : kept (fun i => if i = 0 then some 1 else if i = 1 then none else some (1 / 2)) 0 3 = [some (1 / 2)] := by
  norm_num [kept, List.range'_succ, List.filter_cons]
  intro x hx
  cases hx

example : ∀ i v, (fun _ : ℕ => (none : Option ℝ)) i = some v → ¬(0 < v ∧ v ≤ 1 - 1 / 2 ^ 52) := fun _ _ h => nomatch h

end Apop.Dist.BetaDraw
