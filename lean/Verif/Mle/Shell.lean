import Verif.Mle.Deriv
import Verif.Base.C
import Mathlib.Analysis.SpecialFunctions.Log.Basic

/-! # Evaluations during a search, and what is reported (apop_mle.m4.c:269-410)

The optimizer (GSL's, outside this code base) is an arbitrary deterministic strategy: it asks for
values, gradients or both at points of its choice, and ends with a point. Exact real arithmetic;
NaN is `none`; infinite likelihoods are not modelled. Parameters are one vector (`tracepath` uses
only the vector part of a parameter set). -/

namespace Apop.Mle.Shell

open Apop Apop.Mle

variable {n : ℕ}

/-- The model being estimated: `isLog`: it has a log likelihood (otherwise `f` is its density). -/
structure Model (n : ℕ) where
  isLog : Bool
  f : P n → Option ℝ
  c : Option (Cn n)
  grad : P n → P n

/-- The parts of `infostruct` the evaluations change: whether a path is kept (`path`), the best log
likelihood so far, whether information is wanted, and the model's parameters. -/
structure St (n : ℕ) where
  params : P n
  path : Option (List (P n × ℝ))
  best : ℝ
  want : Bool

/-- `tracepath`, apop_mle.m4.c:269-283: one more row at the end. -/
def tracepath (path : Option (List (P n × ℝ))) (s : P n) (v : ℝ) : Option (List (P n × ℝ)) :=
  path.map (· ++ [(s, v)])

/-- `i->best_ll`, `i->want_info`: apop_mle.m4.c:312-327. For a density the log of a negative value
is NaN, and information is no longer wanted; the log of zero is -∞, below any best value. -/
noncomputable def note (isLog : Bool) (v best : ℝ) (want : Bool) : ℝ × Bool :=
  if !want then (best, want)
  else if isLog then (max best v, true)
  else if v < 0 then (best, false)
  else if v = 0 then (best, true)
  else (max best (Real.log v), true)

/-- `negshell`, apop_mle.m4.c:296-330: the point (replaced by the constrained parameters when there is
a penalty), the value returned, and the new state; `none`: the objective is NaN, a `longjmp`. -/
noncomputable def negshell (m : Model n) (st : St n) (beta : P n) : Option (P n × ℝ × St n) :=
  let q := constrain m.c beta
  let beta' := if q.1 = 0 then beta else q.2
  match m.f q.2 with
  | none => none
  | some y =>
    let w := note m.isLog (-(q.1 - y)) st.best st.want
    some (beta', q.1 - y, ⟨q.2, tracepath st.path q.2 (-(q.1 - y)), w.1, w.2⟩)

/-- What an optimizer may ask for at a point. -/
inductive Ask | f | df | fdf

/-- An optimizer: stop at a point, or ask, and go on according to the point (it may have been
nudged), the value and the gradient it gets. -/
inductive Search (n : ℕ) where
  | stop (x : P n)
  | ask (a : Ask) (b : P n) (k : P n → ℝ → P n → Search n)

/-- `dnegshell`, apop_mle.m4.c:332-358: the negated gradient at the unpacked point; when a path is
kept, also a call of `negshell`. -/
noncomputable def dnegshell (m : Model n) (st : St n) (beta : P n) : Option (P n × P n × St n) :=
  let st1 : St n := { st with params := beta }
  let g := -(m.grad beta)
  if st.path.isSome then (negshell m st1 beta).map fun r => (r.1, g, r.2.2) else some (beta, g, st1)

/-- One request: `negshell`, `dnegshell`, or `fdf_shell` (apop_mle.m4.c:361-364), which calls both. -/
noncomputable def answer (m : Model n) (st : St n) : Ask → P n → Option (P n × ℝ × P n × St n)
  | .f, b => (negshell m st b).map fun r => (r.1, r.2.1, 0, r.2.2)
  | .df, b => (dnegshell m st b).map fun r => (r.1, 0, r.2.1, r.2.2)
  | .fdf, b =>
    match negshell m st b with
    | none => none
    | some r => (dnegshell m r.2.2 r.1).map fun t => (t.1, r.2.1, t.2.1, t.2.2)

/-- How a search ends: at a point, or because an evaluation failed. -/
inductive End (n : ℕ) where
  | at (x : P n) (st : St n)
  | failed

/-- Run the optimizer against the shell functions. -/
noncomputable def run (m : Model n) : Search n → St n → End n
  | .stop x, st => .at x st
  | .ask a b k, st =>
    match answer m st a b with
    | none => .failed
    | some r => run m (k r.1 r.2.1 r.2.2.1) r.2.2.2

/-! ## Specification -/

/-- The point at which the likelihood is evaluated when `b` is asked for. -/
def feasible (m : Model n) (b : P n) : P n := (constrain m.c b).2

/-- The penalty at `b`. -/
def penalty (m : Model n) (b : P n) : ℝ := (constrain m.c b).1

/-- The objective at `b`: likelihood at the feasible point, less the penalty; `none` if NaN. -/
def value (m : Model n) (b : P n) : Option ℝ := (m.f (feasible m b)).map fun y => y - penalty m b

/-- The point the optimizer is left with. -/
noncomputable def nudged (m : Model n) (b : P n) : P n := if penalty m b = 0 then b else feasible m b

/-- The points at which the objective is evaluated for a request, in order: with a path, each
gradient is preceded or replaced by an evaluation. -/
noncomputable def points (m : Model n) (path : Bool) : Ask → P n → List (P n)
  | .f, b => [b]
  | .df, b => if path then [b] else []
  | .fdf, b => if path then [b, nudged m b] else [b]

/-- The value and gradient the optimizer is given, and the point it is left with. -/
noncomputable def replyPoint (m : Model n) (path : Bool) : Ask → P n → P n
  | .f, b => nudged m b
  | .df, b => if path then nudged m b else b
  | .fdf, b => if path then nudged m (nudged m b) else nudged m b

/-- The value given. -/
noncomputable def replyValue (m : Model n) : Ask → P n → ℝ
  | .f, b => -(value m b).getD 0
  | .df, _ => 0
  | .fdf, b => -(value m b).getD 0

/-- The gradient given. -/
noncomputable def replyGrad (m : Model n) : Ask → P n → P n
  | .f, _ => 0
  | .df, b => -(m.grad b)
  | .fdf, b => -(m.grad (nudged m b))

/-- All the points evaluated in a search, in order. -/
noncomputable def visited (m : Model n) (path : Bool) : Search n → List (P n)
  | .stop _ => []
  | .ask a b k => points m path a b ++ visited m path (k (replyPoint m path a b) (replyValue m a b) (replyGrad m a b))

/-- Where the search stops. -/
noncomputable def stopsAt (m : Model n) (path : Bool) : Search n → P n
  | .stop x => x
  | .ask a b k => stopsAt m path (k (replyPoint m path a b) (replyValue m a b) (replyGrad m a b))

/-- The row of the path for a point. -/
def row (m : Model n) (b : P n) : P n × ℝ := (feasible m b, (value m b).getD 0)

/-- The log likelihood of an objective value (for `isLog = false`, of a positive density). -/
noncomputable def llOf (m : Model n) (v : ℝ) : ℝ := if m.isLog then v else Real.log v

/-- No evaluation is NaN, and for densities all are positive. -/
def Fine (m : Model n) (b : P n) : Prop := ∃ v, value m b = some v ∧ (m.isLog = false → 0 < v)

/-! ## Proofs -/

/-- State after evaluating the objective at `b`. -/
noncomputable def after (m : Model n) (st : St n) (b : P n) : St n :=
  ⟨feasible m b, tracepath st.path (feasible m b) ((value m b).getD 0),
    (note m.isLog ((value m b).getD 0) st.best st.want).1, (note m.isLog ((value m b).getD 0) st.best st.want).2⟩

theorem negshell_some {m : Model n} {st : St n} {b : P n} {v : ℝ} (h : value m b = some v) :
    negshell m st b = some (nudged m b, -v, after m st b) := by
  have hv := h
  unfold value feasible penalty at h
  unfold negshell
  simp only
  cases hf : m.f (constrain m.c b).2 with
  | none => rw [hf] at h; simp at h
  | some y =>
    rw [hf] at h
    simp only [Option.map_some, Option.some.injEq] at h
    simp only [after, nudged, feasible, penalty, hv, Option.getD_some]
    rw [← h]; simp only [neg_sub]
    rfl

theorem negshell_none {m : Model n} {st : St n} {b : P n} (h : value m b = none) : negshell m st b = none := by
  unfold value feasible at h
  unfold negshell
  simp only
  cases hf : m.f (constrain m.c b).2 with
  | none => rfl
  | some y => rw [hf] at h; simp at h

/-- The state after evaluating a list of points, but for the parameters. -/
noncomputable def afterAll (m : Model n) (st : St n) : List (P n) → St n
  | [] => st
  | b :: bs => afterAll m (after m st b) bs

/-- Equal but for the parameters. -/
def Sim (a b : St n) : Prop := a.path = b.path ∧ a.best = b.best ∧ a.want = b.want

theorem after_sim {m : Model n} {s t : St n} (h : Sim s t) (b : P n) : Sim (after m s b) (after m t b) := by
  obtain ⟨h1, h2, h3⟩ := h
  simp [after, Sim, h1, h2, h3]

theorem after_path (m : Model n) (st : St n) (b : P n) : (after m st b).path.isSome = st.path.isSome := by
  simp [after, tracepath]

theorem afterAll_append (m : Model n) (st : St n) (a b : List (P n)) : afterAll m st (a ++ b) = afterAll m (afterAll m st a) b := by
  induction a generalizing st with
  | nil => rfl
  | cons x xs ih => simp [afterAll, ih]

theorem afterAll_sim {m : Model n} {s t : St n} (h : Sim s t) (bs : List (P n)) : Sim (afterAll m s bs) (afterAll m t bs) := by
  induction bs generalizing s t with
  | nil => exact h
  | cons x xs ih => exact ih (after_sim h x)

theorem afterAll_path (m : Model n) (st : St n) (bs : List (P n)) : (afterAll m st bs).path.isSome = st.path.isSome := by
  induction bs generalizing st with
  | nil => rfl
  | cons x xs ih => rw [afterAll, ih, after_path]

theorem dnegshell_ok {m : Model n} {st : St n} {b : P n} (h : ∀ x ∈ points m st.path.isSome .df b, (value m x).isSome) :
    ∃ st', dnegshell m st b = some (replyPoint m st.path.isSome .df b, -(m.grad b), st') ∧
      Sim st' (afterAll m st (points m st.path.isSome .df b)) := by
  unfold dnegshell
  simp only
  by_cases hp : st.path.isSome = true
  · simp only [points, hp, if_true, List.mem_singleton, forall_eq] at h
    obtain ⟨v, hv⟩ := Option.isSome_iff_exists.1 h
    rw [if_pos hp, negshell_some hv]
    refine ⟨_, by simp [replyPoint, hp]; rfl, ?_⟩
    simp only [points, hp, if_true, afterAll]
    exact after_sim ⟨rfl, rfl, rfl⟩ b
  · rw [if_neg hp]
    exact ⟨{ st with params := b }, by simp [replyPoint, hp], by simp [points, hp, afterAll, Sim]⟩

theorem answer_ok {m : Model n} {st : St n} {a : Ask} {b : P n} (h : ∀ x ∈ points m st.path.isSome a b, (value m x).isSome) :
    ∃ st', answer m st a b = some (replyPoint m st.path.isSome a b, replyValue m a b, replyGrad m a b, st') ∧
      Sim st' (afterAll m st (points m st.path.isSome a b)) := by
  cases a with
  | f =>
    simp only [points, List.mem_singleton, forall_eq] at h
    obtain ⟨v, hv⟩ := Option.isSome_iff_exists.1 h
    exact ⟨_, by simp [answer, negshell_some hv, replyPoint, replyValue, replyGrad, hv]; rfl, ⟨rfl, rfl, rfl⟩⟩
  | df =>
    obtain ⟨st', h1, h2⟩ := dnegshell_ok h
    exact ⟨st', by simp [answer, h1, replyPoint, replyValue, replyGrad], h2⟩
  | fdf =>
    have hb : (value m b).isSome := h b (by simp [points]; split <;> simp)
    obtain ⟨v, hv⟩ := Option.isSome_iff_exists.1 hb
    have hpp := after_path m st b
    obtain ⟨st', h1, h2⟩ := dnegshell_ok (m := m) (st := after m st b) (b := nudged m b) (by
      rw [hpp]
      intro x hx
      apply h
      by_cases hp : st.path.isSome = true
      · simp [points, hp] at hx ⊢; exact Or.inr hx
      · simp [points, hp] at hx)
    rw [hpp] at h1 h2
    refine ⟨st', ?_, ?_⟩
    · simp only [answer, negshell_some hv, h1, replyPoint, replyValue, replyGrad, hv, Option.map_some, Option.getD_some]
    · by_cases hp : st.path.isSome = true
      · simpa [points, hp, afterAll] using h2
      · simpa [points, hp, afterAll] using h2

theorem run_ok {m : Model n} (s : Search n) {st : St n} (h : ∀ x ∈ visited m st.path.isSome s, (value m x).isSome) :
    ∃ st', run m s st = .at (stopsAt m st.path.isSome s) st' ∧ Sim st' (afterAll m st (visited m st.path.isSome s)) := by
  induction s generalizing st with
  | stop x => exact ⟨st, rfl, rfl, rfl, rfl⟩
  | ask a b k ih =>
    simp only [visited, List.mem_append] at h
    obtain ⟨st1, h1, h2⟩ := answer_ok (m := m) (st := st) (a := a) (b := b) fun x hx => h x (Or.inl hx)
    have hp : st1.path.isSome = st.path.isSome := by rw [h2.1, afterAll_path]
    obtain ⟨st2, h3, h4⟩ := ih (replyPoint m st.path.isSome a b) (replyValue m a b) (replyGrad m a b) (st := st1)
      (by rw [hp]; exact fun x hx => h x (Or.inr hx))
    rw [hp] at h3 h4
    refine ⟨st2, by simp only [run, h1, stopsAt]; exact h3, ?_⟩
    rw [visited, afterAll_append]
    have := afterAll_sim (m := m) h2 (visited m st.path.isSome (k (replyPoint m st.path.isSome a b) (replyValue m a b) (replyGrad m a b)))
    exact ⟨h4.1.trans this.1, h4.2.1.trans this.2.1, h4.2.2.trans this.2.2⟩

theorem afterAll_rows (m : Model n) (st : St n) (bs : List (P n)) : (afterAll m st bs).path = st.path.map (· ++ bs.map (row m)) := by
  induction bs generalizing st with
  | nil => cases h : st.path <;> simp [afterAll, h]
  | cons x xs ih =>
    rw [afterAll, ih]
    cases h : st.path <;> simp [after, tracepath, h, row]

/-- C122. The path. For any optimizer, a search in which every evaluation gives a number ends where
the optimizer stops, and the path is what it was plus one row per evaluation, in order: the feasible
point and the likelihood there less the penalty. -/
theorem C122_path_complete (m : Model n) (s : Search n) (st : St n) (rows : List (P n × ℝ)) (hp : st.path = some rows)
    (h : ∀ x ∈ visited m true s, (value m x).isSome) :
    ∃ st', run m s st = .at (stopsAt m true s) st' ∧ st'.path = some (rows ++ (visited m true s).map (row m)) := by
  have he : st.path.isSome = true := by rw [hp]; rfl
  obtain ⟨st', h1, h2⟩ := run_ok s (st := st) (by rw [he]; exact h)
  rw [he] at h1 h2
  exact ⟨st', h1, by rw [h2.1, afterAll_rows, hp]; rfl⟩

/-- C122. Without a path, the search goes the same way and no path appears. -/
theorem C122_no_path (m : Model n) (s : Search n) (st : St n) (hp : st.path = none)
    (h : ∀ x ∈ visited m false s, (value m x).isSome) :
    ∃ st', run m s st = .at (stopsAt m false s) st' ∧ st'.path = none := by
  have he : st.path.isSome = false := by rw [hp]; rfl
  obtain ⟨st', h1, h2⟩ := run_ok s (st := st) (by rw [he]; exact h)
  rw [he] at h1 h2
  exact ⟨st', h1, by rw [h2.1, afterAll_rows, hp]; rfl⟩

/-- C122. What the optimizer is told: minus the objective; and the point is changed, to the feasible
one, exactly when there is a penalty. -/
theorem C122_negshell (m : Model n) (st : St n) (b : P n) :
    (∀ v, value m b = some v → ∃ st', negshell m st b = some (if penalty m b = 0 then b else feasible m b, -v, st') ∧ st'.params = feasible m b) ∧
    (value m b = none → negshell m st b = none) :=
  ⟨fun _ h => ⟨_, negshell_some h, rfl⟩, negshell_none⟩

/-! ## Nonvacuity -/

/-- One nonnegative parameter, log likelihood `-(x-1)²`. -/
noncomputable def sample : Model 1 :=
  ⟨true, fun s => some (-(s 0 - 1) ^ 2), some fun s => if s 0 < 0 then (- s 0, fun _ => 0) else (0, s), fun s _ => -2 * (s 0 - 1)⟩

/-- Ask for the value at -2, then value and gradient at 1, then stop there. -/
def sampleSearch : Search 1 := .ask .f (fun _ => -2) fun _ _ _ => .ask .fdf (fun _ => 1) fun b _ _ => .stop b

theorem sample_at (x : ℝ) (hx : 0 ≤ x) : value sample (fun _ => x) = some (-(x - 1) ^ 2) ∧ penalty sample (fun _ => x) = 0 ∧ feasible sample (fun _ => x) = fun _ => x := by
  simp [value, feasible, penalty, sample, constrain, not_lt.2 hx]

example : ∃ st', run sample sampleSearch ⟨fun _ => 0, some [], 0, true⟩ = .at (fun _ => 1) st' ∧
    st'.path = some [(fun _ => 0, -3), (fun _ => 1, 0), (fun _ => 1, 0)] := by
  have h1 := sample_at 1 (by norm_num)
  have h2 : value sample (fun _ => -2) = some (-3) ∧ feasible sample (fun _ => -2) = fun _ => 0 := by
    constructor
    · simp [value, feasible, penalty, sample, constrain]; norm_num
    · simp [feasible, sample, constrain]
  have hn : nudged sample (fun _ => 1) = fun _ => 1 := by simp [nudged, h1]
  have hv : visited sample true sampleSearch = [fun _ => -2, fun _ => 1, fun _ => 1] := by
    simp [visited, sampleSearch, points, hn]
  obtain ⟨st', a, b⟩ := C122_path_complete sample sampleSearch ⟨fun _ => 0, some [], 0, true⟩ [] rfl (by
    rw [hv]; intro x hx; simp at hx; rcases hx with rfl | rfl <;> simp [h1, h2])
  refine ⟨st', ?_, ?_⟩
  · rw [a]; simp [stopsAt, sampleSearch, replyPoint, hn]
  · rw [b, hv]; simp [row, h1, h2]

end Apop.Mle.Shell
