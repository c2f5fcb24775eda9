import Verif.Mle.Deriv
import Verif.Base.C
import Mathlib.Algebra.BigOperators.Fin
import Mathlib.Algebra.Order.BigOperators.Group.Finset

/-! # C127: simulated annealing (apop_mle.m4.c:757-880)

The driver is GSL's `gsl_siman_solve`. Everything random (cut points, signs, whether a worse point is
accepted) comes from an arbitrary stream. Exact real arithmetic; a NaN objective is `none`. -/

namespace Apop.Mle.Anneal

open Apop Apop.Mle

variable {n : ℕ}

/-- The problem: the (log) likelihood, the constraint, the step size, and the scale of each parameter
(`i->starting_pt`: the starting point, with 1 for 0; apop_mle.m4.c:827, 850). -/
structure Cfg (n : ℕ) where
  f : P n → Option ℝ
  c : Option (Cn n)
  step : ℝ
  scale : P n

/-- `set_start` over the starting point, apop_mle.m4.c:827. -/
noncomputable def scaleOf (start : P n) : P n := fun j => if start j = 0 then 1 else start j

/-- What the random number generator gives in one iteration: the cut points, the signs, and whether
a point that isn't better is accepted. -/
structure Rand where
  u : ℕ → ℝ
  sg : ℕ → Bool
  accept : Bool

/-- `cutpoints`, apop_mle.m4.c:787-791 (in the order of the assignments: for `n = 0` unused). -/
noncomputable def cut (n : ℕ) (u : ℕ → ℝ) (j : ℕ) : ℝ := if j = n then 1 else if j = 0 then 0 else u j

/-- `annealing_check_constraint`, apop_mle.m4.c:771-775. -/
noncomputable def check (c : Option (Cn n)) (b : P n) : P n := if (constrain c b).1 = 0 then b else (constrain c b).2

/-- The move in `annealing_step`, apop_mle.m4.c:793-798. -/
noncomputable def move (g : Cfg n) (r : Rand) (b : P n) : P n := fun j =>
  b j + (cut n r.u (j + 1) - cut n r.u j) * (if r.sg j then 1 else -1) * g.scale j * g.step

/-- `annealing_step`, apop_mle.m4.c:777-800. -/
noncomputable def stepTo (g : Cfg n) (r : Rand) (b : P n) : P n := check g.c (move g r b)

/-- The state of `gsl_siman_solve`: the current point, its energy and the best log likelihood its copy of
`infostruct` knows; the same for the best point. `seen` (for the specification only): the points evaluated. -/
structure St (n : ℕ) where
  x : P n
  e : ℝ
  xll : ℝ
  best : P n
  be : ℝ
  bll : ℝ
  seen : List (P n)

/-- One iteration of GSL's `gsl_siman_solve`: copy, step, evaluate (`annealing_energy`: minus the likelihood; the
copy's `best_ll` is updated by `negshell`), keep as best if not worse than the best, accept if better or by chance. -/
noncomputable def iter (g : Cfg n) (r : Rand) (s : St n) : Option (St n) :=
  let y := stepTo g r s.x
  match g.f y with
  | none => none
  | some v =>
    let yll := max s.xll v
    let s1 := if -v ≤ s.be then { s with best := y, be := -v, bll := yll } else s
    let s2 := if -v < s.e ∨ r.accept then { s1 with x := y, e := -v, xll := yll } else s1
    some { s2 with seen := y :: s.seen }

/-- All iterations. -/
noncomputable def loop (g : Cfg n) : List Rand → St n → Option (St n)
  | [], s => some s
  | r :: rs, s => (iter g r s).bind (loop g rs)

/-- What the search leaves: the parameters, the best log likelihood, the points evaluated. -/
structure Out (n : ℕ) where
  beta : P n
  ll : ℝ
  seen : List (P n)

/-- `apop_annealing`, apop_mle.m4.c:832-880, with a model that has a log likelihood; `none`: a NaN. The starting point
is shifted to meet the constraint. `stop`: SIGINT after so many iterations: a `longjmp` out of the solver, whose
results are then not copied back. -/
noncomputable def anneal (g : Cfg n) (start : P n) (rs : List Rand) (stop : Option ℕ) : Option (Out n) :=
  let b := check g.c start
  match g.f b with
  | none => none
  | some v =>
    let s0 : St n := ⟨b, -v, max 0 v, b, -v, max 0 v, [b]⟩
    match stop with
    | none => (loop g rs s0).map fun s => ⟨s.best, s.bll, s.seen⟩
    | some k => (loop g (rs.take k) s0).map fun s => ⟨b, max 0 v, s.seen⟩

/-! ## Specification -/

/-- A point the constraint function has nothing against, or has produced. -/
def Shifted (c : Option (Cn n)) (y : P n) : Prop := (constrain c y).1 = 0 ∨ ∃ b, (constrain c b).2 = y

/-- Distance by the Manhattan metric, in units of the scales. -/
noncomputable def manhattan (scale a b : P n) : ℝ := ∑ j, |(a j - b j) / scale j|

theorem check_shifted (c : Option (Cn n)) (b : P n) : Shifted c (check c b) := by
  unfold check
  split
  · exact Or.inl ‹_›
  · exact Or.inr ⟨b, rfl⟩

/-- The invariant. -/
structure Inv (g : Cfg n) (s : St n) : Prop where
  shifted : ∀ y ∈ s.seen, Shifted g.c y
  mem : s.best ∈ s.seen
  val : g.f s.best = some (-s.be)
  top : ∀ y ∈ s.seen, ∃ v, g.f y = some v ∧ v ≤ -s.be
  xval : g.f s.x = some (-s.e)
  xll : s.xll ≤ max 0 (-s.be)
  bll : s.bll = max 0 (-s.be)
  xpos : 0 ≤ s.xll

theorem iter_inv {g : Cfg n} {r : Rand} {s t : St n} (h : Inv g s) (ht : iter g r s = some t) : Inv g t := by
  unfold iter at ht
  simp only at ht
  cases hf : g.f (stepTo g r s.x) with
  | none => rw [hf] at ht; simp at ht
  | some v =>
    rw [hf] at ht
    simp only [Option.some.injEq] at ht
    have hxp := h.xpos
    have hxl := h.xll
    have hbl := h.bll
    have hsh := check_shifted g.c (move g r s.x)
    subst ht
    by_cases h1 : -v ≤ s.be <;> by_cases h2 : -v < s.e ∨ r.accept = true <;> simp only [h1, h2, if_true, if_false]
    · refine ⟨?_, by simp, by simpa using hf, ?_, by simpa using hf, ?_, ?_, ?_⟩
      · intro y hy; simp at hy; rcases hy with rfl | hy
        · exact hsh
        · exact h.shifted y hy
      · intro y hy; simp at hy; rcases hy with rfl | hy
        · exact ⟨v, hf, by simp⟩
        · obtain ⟨w, hw1, hw2⟩ := h.top y hy; exact ⟨w, hw1, by simp; linarith⟩
      · simp only [neg_neg]
        refine max_le ?_ (le_max_right _ _)
        rcases le_max_iff.1 hxl with h3 | h3
        · exact le_max_of_le_left h3
        · exact le_max_of_le_right (by linarith)
      · simp
        apply le_antisymm
        · refine max_le ?_ (le_max_right _ _)
          rcases le_max_iff.1 hxl with h3 | h3
          · exact le_max_of_le_left h3
          · exact le_max_of_le_right (by linarith)
        · exact max_le (le_max_of_le_left hxp) (le_max_right _ _)
      · simp [hxp]
    · refine ⟨?_, by simp, by simpa using hf, ?_, h.xval, ?_, ?_, hxp⟩
      · intro y hy; simp at hy; rcases hy with rfl | hy
        · exact hsh
        · exact h.shifted y hy
      · intro y hy; simp at hy; rcases hy with rfl | hy
        · exact ⟨v, hf, by simp⟩
        · obtain ⟨w, hw1, hw2⟩ := h.top y hy; exact ⟨w, hw1, by simp; linarith⟩
      · simp; rcases le_max_iff.1 hxl with h3 | h3
        · exact Or.inl h3
        · exact Or.inr (by linarith)
      · simp
        apply le_antisymm
        · refine max_le ?_ (le_max_right _ _)
          rcases le_max_iff.1 hxl with h3 | h3
          · exact le_max_of_le_left h3
          · exact le_max_of_le_right (by linarith)
        · exact max_le (le_max_of_le_left hxp) (le_max_right _ _)
    · refine ⟨?_, by simp [h.mem], h.val, ?_, by simpa using hf, ?_, hbl, ?_⟩
      · intro y hy; simp at hy; rcases hy with rfl | hy
        · exact hsh
        · exact h.shifted y hy
      · intro y hy; simp at hy; rcases hy with rfl | hy
        · exact ⟨v, hf, by simp; linarith⟩
        · exact h.top y hy
      · exact max_le hxl (le_max_of_le_right (by simp; linarith))
      · simp [hxp]
    · refine ⟨?_, by simp [h.mem], h.val, ?_, h.xval, hxl, hbl, hxp⟩
      · intro y hy; simp at hy; rcases hy with rfl | hy
        · exact hsh
        · exact h.shifted y hy
      · intro y hy; simp at hy; rcases hy with rfl | hy
        · exact ⟨v, hf, by simp; linarith⟩
        · exact h.top y hy

theorem loop_inv {g : Cfg n} {rs : List Rand} {s t : St n} (h : Inv g s) (ht : loop g rs s = some t) : Inv g t := by
  induction rs generalizing s with
  | nil => simp [loop] at ht; subst ht; exact h
  | cons r rs ih =>
    rw [loop] at ht
    cases hi : iter g r s with
    | none => rw [hi] at ht; simp at ht
    | some s' => rw [hi] at ht; exact ih (iter_inv h hi) ht

theorem start_inv {g : Cfg n} {start : P n} {v : ℝ} (hv : g.f (check g.c start) = some v) :
    Inv g ⟨check g.c start, -v, max 0 v, check g.c start, -v, max 0 v, [check g.c start]⟩ :=
  ⟨by intro y hy; simp at hy; subst hy; exact check_shifted _ _, by simp, by simpa using hv,
    by intro y hy; simp at hy; subst hy; exact ⟨v, hv, by simp⟩, by simpa using hv, by simp, by simp, by simp⟩

/-- C127. Whatever the random numbers: the parameters annealing returns are, of all the points at which it
evaluated the likelihood, one with the largest; every point evaluated, the first included, is one the constraint
passed or produced; and the log likelihood remembered is that of the returned parameters (or, when that
isn't positive, zero, which makes `add_info_criteria` recalculate it). -/
theorem C127_best_of_seen (g : Cfg n) (start : P n) (rs : List Rand) (o : Out n) (h : anneal g start rs none = some o) :
    ∃ l, g.f o.beta = some l ∧ o.beta ∈ o.seen ∧ check g.c start ∈ o.seen ∧
      (∀ y ∈ o.seen, Shifted g.c y ∧ ∃ v, g.f y = some v ∧ v ≤ l) ∧ o.ll = max 0 l := by
  unfold anneal at h
  simp only at h
  cases hv : g.f (check g.c start) with
  | none => rw [hv] at h; simp at h
  | some v =>
    rw [hv] at h
    simp only [Option.map_eq_some_iff] at h
    obtain ⟨t, ht, rfl⟩ := h
    have hi := loop_inv (start_inv hv) ht
    refine ⟨_, hi.val, hi.mem, ?_, fun y hy => ⟨hi.shifted y hy, hi.top y hy⟩, hi.bll⟩
    have mono : ∀ (rs : List Rand) (s t : St n), loop g rs s = some t → ∀ y ∈ s.seen, y ∈ t.seen := by
      intro rs
      induction rs with
      | nil => intro s t h y hy; simp [loop] at h; subst h; exact hy
      | cons r rs ih =>
        intro s t h y hy
        rw [loop] at h
        cases hq : iter g r s with
        | none => rw [hq] at h; simp at h
        | some s' =>
          rw [hq] at h
          refine ih s' t h y ?_
          unfold iter at hq
          simp only at hq
          cases hf : g.f (stepTo g r s.x) with
          | none => rw [hf] at hq; simp at hq
          | some w =>
            rw [hf] at hq
            simp only [Option.some.injEq] at hq
            subst hq
            simp [hy]
    exact mono _ _ _ ht _ (by simp)

/-- C127 (refutation of "ctrl-C will ... return whatever parameters the search was on"). Interrupted at any time, annealing
returns the (shifted) starting point. -/
theorem C127_interrupt_refuted (g : Cfg n) (start : P n) (rs : List Rand) (k : ℕ) (o : Out n) (h : anneal g start rs (some k) = some o) :
    o.beta = check g.c start := by
  unfold anneal at h
  simp only at h
  cases hv : g.f (check g.c start) with
  | none => rw [hv] at h; simp at h
  | some v =>
    rw [hv] at h
    simp only [Option.map_eq_some_iff] at h
    obtain ⟨t, _, rfl⟩ := h
    rfl

/-! ## Steps -/

/-- C127. With one parameter the move is always by exactly one step, scaled; with two, the moves of the two parameters add up to
exactly one step (before the constraint). -/
theorem C127_step_small (g : Cfg n) (r : Rand) (b : P n) (hn : n = 1 ∨ n = 2) (hu : ∀ j, 0 ≤ r.u j ∧ r.u j ≤ 1)
    (hs : ∀ j, g.scale j ≠ 0) : manhattan g.scale (move g r b) b = |g.step| := by
  have key : ∀ j, |(move g r b j - b j) / g.scale j| = |cut n r.u (j + 1) - cut n r.u j| * |g.step| := by
    intro j
    have : (move g r b j - b j) / g.scale j = (cut n r.u (j + 1) - cut n r.u j) * (if r.sg j then 1 else -1) * g.step := by
      unfold move
      rw [add_sub_cancel_left, div_eq_iff (hs j)]
      ring
    rw [this, abs_mul, abs_mul]
    cases r.sg j <;> simp
  unfold manhattan
  simp only [key]
  rcases hn with rfl | rfl
  · simp [cut]
  · have h1 := hu 1
    simp [Fin.sum_univ_two, cut]
    rw [abs_of_nonneg h1.1, abs_of_nonneg (by linarith : (0:ℝ) ≤ 1 - r.u 1)]
    ring

/-- C127. In general each parameter moves by at most one scaled step, so the whole move is at most as many steps as there are parameters. -/
theorem C127_step_bound (g : Cfg n) (r : Rand) (b : P n) (hu : ∀ j, 0 ≤ r.u j ∧ r.u j ≤ 1) (hs : ∀ j, g.scale j ≠ 0) :
    (∀ j, |move g r b j - b j| ≤ |g.scale j| * |g.step|) ∧ manhattan g.scale (move g r b) b ≤ n * |g.step| := by
  have hc : ∀ j, 0 ≤ cut n r.u j ∧ cut n r.u j ≤ 1 := by
    intro j; unfold cut; split
    · simp
    · split
      · simp
      · exact hu j
  have hd : ∀ j : Fin n, |cut n r.u (j + 1) - cut n r.u j| ≤ 1 := by
    intro j; rw [abs_le]; constructor <;> linarith [(hc (j + 1)).1, (hc (j + 1)).2, (hc j).1, (hc j).2]
  have key : ∀ j, |move g r b j - b j| = |cut n r.u (j + 1) - cut n r.u j| * (|g.scale j| * |g.step|) := by
    intro j
    unfold move
    rw [add_sub_cancel_left, abs_mul, abs_mul, abs_mul]
    cases r.sg j <;> simp [mul_assoc]
  have k1 : ∀ j, |move g r b j - b j| ≤ |g.scale j| * |g.step| := fun j => by
    rw [key j]; exact mul_le_of_le_one_left (by positivity) (hd j)
  refine ⟨k1, ?_⟩
  unfold manhattan
  calc ∑ j, |(move g r b j - b j) / g.scale j| ≤ ∑ _j : Fin n, |g.step| := by
        refine Finset.sum_le_sum fun j _ => ?_
        rw [abs_div, div_le_iff₀ (abs_pos.2 (hs j)), mul_comm]
        exact k1 j
    _ = n * |g.step| := by simp

/-- C127. The scale is the starting value itself where that isn't zero, and one where it is: never zero, so the bounds above hold from any start. -/
theorem C127_scale (g : Cfg n) (start : P n) (hg : g.scale = scaleOf start) (r : Rand) (b : P n) (hu : ∀ j, 0 ≤ r.u j ∧ r.u j ≤ 1) :
    (∀ j, start j ≠ 0 → g.scale j = start j) ∧ (∀ j, start j = 0 → |move g r b j - b j| ≤ |g.step|) ∧
    (∀ j, start j ≠ 0 → |move g r b j - b j| ≤ |start j| * |g.step|) ∧ manhattan g.scale (move g r b) b ≤ n * |g.step| := by
  have h1 : ∀ j, start j ≠ 0 → g.scale j = start j := fun j h => by rw [hg]; exact if_neg h
  have h0 : ∀ j, start j = 0 → g.scale j = 1 := fun j h => by rw [hg]; exact if_pos h
  have hs : ∀ j, g.scale j ≠ 0 := fun j => by
    by_cases h : start j = 0
    · rw [h0 j h]; exact one_ne_zero
    · rw [h1 j h]; exact h
  obtain ⟨k1, k2⟩ := C127_step_bound g r b hu hs
  refine ⟨h1, fun j h => ?_, fun j h => ?_, k2⟩
  · have := k1 j; rwa [h0 j h, abs_one, one_mul] at this
  · have := k1 j; rwa [h1 j h] at this

/-- C127 (refutation). With three parameters or more the cut points aren't in order, and the move can be longer than the
step size by the Manhattan metric, against the comment at apop_mle.m4.c:782: cut points 0, .9, .1, 1 give 2.6 steps. -/
theorem C127_step_long_refuted :
    ∃ (g : Cfg 3) (r : Rand) (b : P 3), (∀ j, 0 ≤ r.u j ∧ r.u j ≤ 1) ∧ (∀ j, g.scale j ≠ 0) ∧ g.step = 1 ∧
      manhattan g.scale (move g r b) b = 2.6 := by
  refine ⟨⟨fun _ => some 0, none, 1, fun _ => 1⟩, ⟨fun j => if j = 1 then 9 / 10 else 1 / 10, fun _ => true, false⟩, fun _ => 0, ?_, by simp, rfl, ?_⟩
  · intro j; simp only; split <;> norm_num
  · simp [manhattan, Fin.sum_univ_three, move, cut]
    norm_num [abs_of_pos, abs_of_neg]

/-- C127 (limitation). With one parameter and no constraint, every point evaluated is the starting point plus a whole number
of scaled steps: the estimate can't be nearer to the optimum than that grid is. -/
theorem C127_one_parameter_grid (g : Cfg 1) (hc : g.c = none) (start : P 1) (rs : List Rand) (o : Out 1) (h : anneal g start rs none = some o) :
    ∀ y ∈ o.seen, ∃ k : ℤ, y 0 = start 0 + k * (g.scale 0 * g.step) := by
  have hcheck : ∀ b : P 1, check g.c b = b := fun b => by simp [check, hc, constrain]
  have inv : ∀ (rs : List Rand) (s t : St 1), loop g rs s = some t →
      ((∃ k : ℤ, s.x 0 = start 0 + k * (g.scale 0 * g.step)) ∧ ∀ y ∈ s.seen, ∃ k : ℤ, y 0 = start 0 + k * (g.scale 0 * g.step)) →
      ∀ y ∈ t.seen, ∃ k : ℤ, y 0 = start 0 + k * (g.scale 0 * g.step) := by
    intro rs
    induction rs with
    | nil => intro s t h hs; simp [loop] at h; subst h; exact hs.2
    | cons r rs ih =>
      intro s t h hs
      rw [loop] at h
      cases hq : iter g r s with
      | none => rw [hq] at h; simp at h
      | some s' =>
        rw [hq] at h
        refine ih s' t h ?_
        unfold iter at hq
        simp only at hq
        have hy : ∃ k : ℤ, stepTo g r s.x 0 = start 0 + k * (g.scale 0 * g.step) := by
          obtain ⟨k, hk⟩ := hs.1
          rw [stepTo, hcheck]
          cases hsg : r.sg 0 with
          | true => exact ⟨k + 1, by simp [move, cut, hsg, hk]; ring⟩
          | false => exact ⟨k - 1, by simp [move, cut, hsg, hk]; ring⟩
        cases hf : g.f (stepTo g r s.x) with
        | none => rw [hf] at hq; simp at hq
        | some w =>
          rw [hf] at hq
          simp only [Option.some.injEq] at hq
          subst hq
          refine ⟨?_, ?_⟩
          · by_cases h1 : -w ≤ s.be <;> by_cases h2 : -w < s.e ∨ r.accept = true <;> simp only [h1, h2, if_true, if_false] <;>
              first | exact hy | exact hs.1
          · intro y hm
            simp at hm
            rcases hm with rfl | hm
            · exact hy
            · exact hs.2 y hm
  unfold anneal at h
  simp only [hcheck] at h
  cases hv : g.f start with
  | none => rw [hv] at h; simp at h
  | some v =>
    rw [hv] at h
    simp only [Option.map_eq_some_iff] at h
    obtain ⟨t, ht, rfl⟩ := h
    exact inv _ _ _ ht ⟨⟨0, by simp⟩, by intro y hy; simp at hy; subst hy; exact ⟨0, by simp⟩⟩

/-! ## Nonvacuity -/

/-- Log likelihood `-(x-2)²`, starting at 1 with step 1. -/
noncomputable def sample : Cfg 1 := ⟨fun s => some (-(s 0 - 2) ^ 2), none, 1, fun _ => 1⟩

/-- One step upwards. -/
def up : Rand := ⟨fun _ => 0, fun _ => true, false⟩

example : ∃ o, anneal sample (fun _ => 1) [up] none = some o ∧ o.beta 0 = 2 ∧ o.seen.length = 2 := by
  have hc : ∀ b : P 1, check sample.c b = b := fun b => by simp [check, sample, constrain]
  have hm : stepTo sample up (fun _ => 1) = fun _ => 2 := by
    funext j
    have : j = 0 := by omega
    subst this
    rw [stepTo, hc]; simp [move, cut, up, sample]; norm_num
  refine ⟨⟨fun _ => 2, 0, [fun _ => 2, fun _ => 1]⟩, ?_, rfl, rfl⟩
  have f1 : sample.f (fun _ => 1) = some (-1) := by simp [sample]; norm_num
  have f2 : sample.f (fun _ => 2) = some 0 := by simp [sample]
  unfold anneal
  simp only [hc, f1]
  simp only [loop, iter, hm, f2]
  norm_num

end Apop.Mle.Anneal
