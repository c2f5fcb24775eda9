import Verif.Mle.Deriv
import Verif.Base.C
import Mathlib.Algebra.Order.Archimedean.Basic
import Mathlib.Algebra.Order.Archimedean.Real.Basic

/-! # C128: cycling over dimensions (apop_mle.m4.c:538-572); C129: starting points with fixed parameters
(transform/apop_fix_params.c:176-192) -/

namespace Apop.Mle.Cycle

open Apop Apop.Mle

variable {n : ℕ}

/-- The one-dimensional searches: `opt t i b` is where the search over parameter `i` in cycle `t` ends, with the others
fixed at `b`. -/
abbrev Opt (n : ℕ) := ℕ → Fin n → P n → ℝ

/-- The `for` loop over dimensions, apop_mle.m4.c:553-565: parameter `i` replaced by the optimum of its search. -/
def sweep (opt : Opt n) (t : ℕ) : List (Fin n) → P n → P n
  | [], b => b
  | i :: is, b => sweep opt t is (Function.update b i (opt t i b))

/-- One pass through all dimensions. -/
def cycle (opt : Opt n) (t : ℕ) (b : P n) : P n := sweep opt t (List.finRange n) b

/-- The `do ... while` of `dim_cycle`, apop_mle.m4.c:545-569, with fuel; `last`: the previous cycle's log likelihood
(`none`: -∞, before the first). Simplified: finite log likelihoods. Result: the parameters and the number of cycles done. -/
noncomputable def dimCycle (ll : P n → ℝ) (opt : Opt n) (tol : ℝ) : ℕ → ℕ → Option ℝ → P n → Option (P n × ℕ)
  | 0, _, _, _ => none
  | fuel + 1, t, last, b =>
    let b' := cycle opt t b
    match last with
    | none => dimCycle ll opt tol fuel (t + 1) (some (ll b')) b'
    | some l => if tol < |ll b' - l| then dimCycle ll opt tol fuel (t + 1) (some (ll b')) b' else some (b', t + 1)

/-! ## Specification -/

/-- The parameters after `k` cycles. -/
def after (opt : Opt n) (b : P n) : ℕ → P n
  | 0 => b
  | k + 1 => cycle opt k (after opt b k)

/-- A one-dimensional search that never ends below where it began. -/
def NotWorse (ll : P n → ℝ) (opt : Opt n) : Prop := ∀ t i b, ll b ≤ ll (Function.update b i (opt t i b))

theorem dimCycle_spec (ll : P n → ℝ) (opt : Opt n) (tol : ℝ) (b : P n) (fuel t : ℕ) (r : P n × ℕ)
    (h : dimCycle ll opt tol fuel (t + 1) (some (ll (after opt b (t + 1)))) (after opt b (t + 1)) = some r) :
    t + 2 ≤ r.2 ∧ r.1 = after opt b r.2 ∧ |ll (after opt b r.2) - ll (after opt b (r.2 - 1))| ≤ tol ∧
      ∀ k, t + 2 ≤ k → k < r.2 → tol < |ll (after opt b k) - ll (after opt b (k - 1))| := by
  induction fuel generalizing t with
  | zero => simp [dimCycle] at h
  | succ fuel ih =>
    rw [dimCycle] at h
    have e : cycle opt (t + 1) (after opt b (t + 1)) = after opt b (t + 2) := rfl
    rw [e] at h
    split at h
    · rename_i hlt
      obtain ⟨a1, a2, a3, a4⟩ := ih (t + 1) h
      refine ⟨by omega, a2, a3, fun k h1 h2 => ?_⟩
      rcases Nat.eq_or_lt_of_le h1 with rfl | h3
      · exact hlt
      · exact a4 k h3 h2
    · rename_i hle
      simp only [Option.some.injEq] at h
      subst h
      refine ⟨by simp, rfl, by simpa using hle, fun k h1 h2 => ?_⟩
      simp at h2
      omega

/-- C128. When the cycling ends, there were at least two cycles; the last changed the log likelihood by no more than the
tolerance and every one before it (but the first) by more; and the parameters are those after that many cycles. -/
theorem C128_stops (ll : P n → ℝ) (opt : Opt n) (tol : ℝ) (b : P n) (fuel : ℕ) (x : P n) (k : ℕ)
    (h : dimCycle ll opt tol fuel 0 none b = some (x, k)) :
    2 ≤ k ∧ x = after opt b k ∧ |ll (after opt b k) - ll (after opt b (k - 1))| ≤ tol ∧
      ∀ j, 2 ≤ j → j < k → tol < |ll (after opt b j) - ll (after opt b (j - 1))| := by
  cases fuel with
  | zero => simp [dimCycle] at h
  | succ fuel =>
    rw [dimCycle] at h
    exact dimCycle_spec ll opt tol b fuel 0 (x, k) h

theorem sweep_mono {ll : P n → ℝ} {opt : Opt n} (h : NotWorse ll opt) (t : ℕ) (is : List (Fin n)) (b : P n) :
    ll b ≤ ll (sweep opt t is b) := by
  induction is generalizing b with
  | nil => exact le_rfl
  | cons i is ih => exact (h t i b).trans (ih _)

theorem after_mono {ll : P n → ℝ} {opt : Opt n} (h : NotWorse ll opt) (b : P n) (k : ℕ) :
    ll (after opt b k) ≤ ll (after opt b (k + 1)) := sweep_mono h k _ _

/-- C128. With searches that never lose ground, the result is at least as likely as the starting point. -/
theorem C128_not_worse (ll : P n → ℝ) (opt : Opt n) (tol : ℝ) (b : P n) (hw : NotWorse ll opt) (fuel : ℕ) (x : P n) (k : ℕ)
    (h : dimCycle ll opt tol fuel 0 none b = some (x, k)) : ll b ≤ ll x := by
  rw [(C128_stops ll opt tol b fuel x k h).2.1]
  clear h
  induction k with
  | zero => exact le_rfl
  | succ k ih => exact ih.trans (after_mono hw b k)

theorem dimCycle_more (ll : P n → ℝ) (opt : Opt n) (tol : ℝ) (b : P n) (fuel t : ℕ)
    (h : dimCycle ll opt tol fuel (t + 1) (some (ll (after opt b (t + 1)))) (after opt b (t + 1)) = none) :
    ∀ k, t + 2 ≤ k → k < t + 2 + fuel → tol < |ll (after opt b k) - ll (after opt b (k - 1))| := by
  induction fuel generalizing t with
  | zero => intro k h1 h2; omega
  | succ fuel ih =>
    rw [dimCycle] at h
    have e : cycle opt (t + 1) (after opt b (t + 1)) = after opt b (t + 2) := rfl
    rw [e] at h
    split at h
    · rename_i hlt
      intro k h1 h2
      rcases Nat.eq_or_lt_of_le h1 with rfl | h3
      · exact hlt
      · exact ih (t + 1) h k h3 (by omega)
    · simp at h

/-- C128. If moreover the log likelihood is bounded above, and the tolerance is positive, the cycling ends. -/
theorem C128_terminates (ll : P n → ℝ) (opt : Opt n) (tol : ℝ) (ht : 0 < tol) (b : P n) (hw : NotWorse ll opt) (B : ℝ) (hB : ∀ x, ll x ≤ B) :
    ∃ fuel x k, dimCycle ll opt tol fuel 0 none b = some (x, k) := by
  obtain ⟨N, hN⟩ := exists_nat_gt ((B - ll (after opt b 1)) / tol)
  rw [div_lt_iff₀ ht] at hN
  refine ⟨N + 2, ?_⟩
  cases h : dimCycle ll opt tol (N + 2) 0 none b with
  | some r => exact ⟨r.1, r.2, rfl⟩
  | none =>
    exfalso
    rw [dimCycle] at h
    have hg := dimCycle_more ll opt tol b (N + 1) 0 h
    have grow : ∀ j, j ≤ N → ll (after opt b 1) + j * tol ≤ ll (after opt b (1 + j)) := by
      intro j
      induction j with
      | zero => intro _; simp
      | succ j ih =>
        intro hj
        have h1 := hg (j + 2) (by omega) (by omega)
        have h2 := after_mono hw b (j + 1)
        have e1 : j + 2 - 1 = j + 1 := by omega
        rw [e1, abs_of_nonneg (by linarith)] at h1
        have h3 := ih (by omega)
        rw [show 1 + j = j + 1 by omega] at h3
        rw [show 1 + (j + 1) = j + 2 by omega]
        push_cast
        linarith
    have := grow N le_rfl
    have := hB (after opt b (1 + N))
    linarith

/-- Searches that go back and forth between 0 and 1. -/
noncomputable def flip : Opt 1 := fun t _ _ => if t % 2 = 0 then 0 else 1

/-- C128 (refutation of termination in general). Searches that lose ground can keep it going for ever: the log likelihood
is the parameter, the tolerance one half. -/
theorem C128_endless_refuted : ∀ fuel, dimCycle (fun s : P 1 => s 0) flip (1 / 2) fuel 0 none (fun _ => 0) = none := by
  have hc : ∀ t (b : P 1), cycle flip t b 0 = if t % 2 = 0 then 0 else 1 := by
    intro t b
    simp [cycle, List.finRange_succ, sweep, flip]
  have main : ∀ fuel t (b : P 1) (l : ℝ), l = (if t % 2 = 0 then 1 else 0) → dimCycle (fun s : P 1 => s 0) flip (1 / 2) fuel t (some l) b = none := by
    intro fuel
    induction fuel with
    | zero => intros; rfl
    | succ fuel ih =>
      intro t b l hl
      rw [dimCycle]
      simp only [hc]
      have : (1 / 2 : ℝ) < |(if t % 2 = 0 then 0 else 1) - l| := by
        rw [hl]
        split <;> norm_num
      rw [if_pos this]
      apply ih
      rcases Nat.mod_two_eq_zero_or_one t with h | h
      · have : (t + 1) % 2 = 1 := by omega
        simp [h, this]
      · have : (t + 1) % 2 = 0 := by omega
        simp [h, this]
  intro fuel
  cases fuel with
  | zero => rfl
  | succ fuel =>
    rw [dimCycle]
    simp only [hc]
    exact main fuel 1 _ _ (by simp)

/-- Nonvacuity: exact searches for `-(x-1)²-(y-1)²` satisfy `NotWorse`, and the log likelihood is bounded. -/
example : ∃ fuel x k, dimCycle (fun s : P 2 => -(s 0 - 1) ^ 2 - (s 1 - 1) ^ 2) (fun _ _ _ => 1) (1 / 10) fuel 0 none (fun _ => 5) = some (x, k) := by
  refine C128_terminates _ _ _ (by norm_num) _ ?_ 0 ?_
  · intro t i b
    fin_cases i <;> simp [Function.update] <;> positivity
  · intro x
    have := sq_nonneg (x 0 - 1)
    have := sq_nonneg (x 1 - 1)
    linarith

/-! ## C129: the starting point of a model with fixed parameters -/

/-- The table of fill-ins as its matrix's memory: rows of row number, column, page, value. -/
def flat : List (ℝ × ℝ × ℝ × ℝ) → List ℝ
  | [] => []
  | (r, c, p, v) :: t => r :: c :: p :: v :: flat t

/-- `set_starting_point`, transform/apop_fix_params.c:176-192, its end: as many consecutive doubles as there are free
parameters, from the first element of the value column (whose stride is four). -/
def newStart (tab : List (ℝ × ℝ × ℝ × ℝ)) : Res (List ℝ) :=
  if (flat tab).length < 3 + tab.length then .ub else .ok (((flat tab).drop 3).take tab.length)

theorem flat_length (tab : List (ℝ × ℝ × ℝ × ℝ)) : (flat tab).length = 4 * tab.length := by
  induction tab with
  | nil => rfl
  | cons a t ih => obtain ⟨r, c, p, v⟩ := a; simp [flat, ih]; omega

/-- C129. With one free parameter, its search starts at the value the starting point given has for it. -/
theorem C129_one_free (e : ℝ × ℝ × ℝ × ℝ) : newStart [e] = .ok [e.2.2.2] := by
  obtain ⟨r, c, p, v⟩ := e
  simp [newStart, flat]

/-- C129. With any number of free parameters, no memory outside the table is read, and there is a start for each. -/
theorem C129_size (tab : List (ℝ × ℝ × ℝ × ℝ)) (h : tab ≠ []) : ∃ l, newStart tab = .ok l ∧ l.length = tab.length := by
  have h0 : 1 ≤ tab.length := List.length_pos_iff.2 h
  have := flat_length tab
  refine ⟨_, by rw [newStart, if_neg (by omega)], ?_⟩
  rw [List.length_take, List.length_drop, this]
  omega

/-- C129 (refutation). With two or more free parameters, the second starts from the row number of its place in the
parameters, not from the value given. -/
theorem C129_two_free_refuted (a b : ℝ × ℝ × ℝ × ℝ) (t : List (ℝ × ℝ × ℝ × ℝ)) :
    ∃ l, newStart (a :: b :: t) = .ok l ∧ l[0]? = some a.2.2.2 ∧ l[1]? = some b.1 := by
  obtain ⟨r, c, p, v⟩ := a
  obtain ⟨r', c', p', v'⟩ := b
  refine ⟨_, by rw [newStart, if_neg (by rw [flat_length]; simp; omega)], ?_, ?_⟩
  · simp [flat]
  · simp [flat, List.getElem?_take]

example : newStart [(0, -1, 0, 0.5), (3, -1, 0, 0.7)] = .ok [0.5, 3] := by simp [newStart, flat]

end Apop.Mle.Cycle
