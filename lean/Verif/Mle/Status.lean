import Verif.Base.C
import Mathlib.Data.Real.Basic
import Mathlib.Tactic.Linarith

/-! # C124, C125: which search is run, from where, and the status it reports
(apop_mle.m4.c:370-376, 412-525, 574-670, 757-916) -/

namespace Apop.Mle.Status

open Apop

/-! ## The loops -/

/-- What one iteration of a GSL minimizer or root finder ends in: a NaN in the objective (a `longjmp`),
an error code, convergence by the tolerance, or neither. -/
inductive Turn | nan | error | success | cont
  deriving DecidableEq

/-- Why the loop stopped. -/
inductive How | nan | error | success | interrupted | limit
  deriving DecidableEq

/-- The `do ... while (status == GSL_CONTINUE && iter < max && !ctrl_c)` loop of the searches
(apop_mle.m4.c:447-463, 495-518), from iteration `iter` with `r` iterations left after it: number of
iterations and why it stopped. `t i`: what iteration `i` ends in; `c i`: SIGINT received by then. -/
def go (t : ℕ → Turn) (c : ℕ → Bool) : ℕ → ℕ → ℕ × How
  | 0, iter =>
    match t iter with
    | .nan => (iter, .nan)
    | .error => (iter, .error)
    | .success => (iter, .success)
    | .cont => (iter, if c iter then .interrupted else .limit)
  | r + 1, iter =>
    match t iter with
    | .nan => (iter, .nan)
    | .error => (iter, .error)
    | .success => (iter, .success)
    | .cont => if c iter then (iter, .interrupted) else go t c r (iter + 1)

/-- The whole loop. At least one iteration is done. -/
def loop (t : ℕ → Turn) (c : ℕ → Bool) (max : ℕ) : ℕ × How := go t c (max - 1) 1

/-- `apop_maximum_likelihood_w_d`, apop_mle.m4.c:412-472 (conjugate gradient methods): the status. -/
def statusCG (t : ℕ → Turn) (c : ℕ → Bool) (max : ℕ) : ℤ :=
  let e := loop t c max
  let s : ℤ := if e.2 = .nan then -1 else 0
  if e.1 = max then -1 else s

/-- `apop_maximum_likelihood_no_d`, apop_mle.m4.c:475-525 (simplex): the status. -/
def statusSimplex (t : ℕ → Turn) (c : ℕ → Bool) (max : ℕ) : ℤ :=
  let e := loop t c max
  let s : ℤ := if e.2 = .nan then -1 else 0
  if e.2 = .success then 0 else s

/-- `find_roots`, apop_mle.m4.c:885-916 (Newton methods; SIGINT isn't caught): the status.
`if (GSL_SUCCESS) apopstatus = 0`, where `GSL_SUCCESS` is the constant 0. -/
def statusNewton (_t : ℕ → Turn) (_max : ℕ) : ℤ :=
  let s : ℤ := -1
  if (0 : ℤ) ≠ 0 then 0 else s

/-- `apop_annealing`, apop_mle.m4.c:824-880: the status; `nan`: an evaluation failed. -/
def statusAnneal (nan : Bool) : ℤ := if nan then -1 else 0

/-! ## Specification -/

/-- The loop's end, described by the iterations: `k` iterations were done, the ones before the last
without result or interruption. -/
structure Ends (t : ℕ → Turn) (c : ℕ → Bool) (max : ℕ) (k : ℕ) (how : How) : Prop where
  pos : 1 ≤ k
  le : k ≤ Nat.max 1 max
  before : ∀ i, 1 ≤ i → i < k → t i = .cont ∧ c i = false
  last : match how with
    | .nan => t k = .nan
    | .error => t k = .error
    | .success => t k = .success
    | .interrupted => t k = .cont ∧ c k = true
    | .limit => t k = .cont ∧ c k = false ∧ max ≤ k

theorem go_spec (t : ℕ → Turn) (c : ℕ → Bool) (r iter : ℕ) :
    iter ≤ (go t c r iter).1 ∧ (go t c r iter).1 ≤ iter + r ∧
    (∀ i, iter ≤ i → i < (go t c r iter).1 → t i = .cont ∧ c i = false) ∧
    (match (go t c r iter).2 with
      | .nan => t (go t c r iter).1 = .nan
      | .error => t (go t c r iter).1 = .error
      | .success => t (go t c r iter).1 = .success
      | .interrupted => t (go t c r iter).1 = .cont ∧ c (go t c r iter).1 = true
      | .limit => t (go t c r iter).1 = .cont ∧ c (go t c r iter).1 = false ∧ (go t c r iter).1 = iter + r) := by
  induction r generalizing iter with
  | zero =>
    unfold go
    cases h : t iter with
    | cont =>
      cases hc : c iter with
      | true => refine ⟨by simp, by simp, ?_, by simp [h, hc]⟩; intro i h1 h2; simp at h2; omega
      | false => refine ⟨by simp, by simp, ?_, by simp [h, hc]⟩; intro i h1 h2; simp at h2; omega
    | _ => refine ⟨by simp, by simp, ?_, by simp [h]⟩; intro i h1 h2; simp at h2; omega
  | succ r ih =>
    obtain ⟨a, b, d, e⟩ := ih (iter + 1)
    unfold go
    cases h : t iter with
    | cont =>
      cases hc : c iter with
      | true => refine ⟨by simp, by simp, ?_, by simp [h, hc]⟩; intro i h1 h2; simp at h2; omega
      | false =>
        simp only [Bool.false_eq_true, if_false]
        refine ⟨by omega, by omega, ?_, ?_⟩
        · intro i h1 h2
          rcases Nat.eq_or_lt_of_le h1 with rfl | h3
          · exact ⟨h, hc⟩
          · exact d i h3 h2
        · revert e
          cases (go t c r (iter + 1)).2 <;> simp only <;> intro e <;> try exact e
          exact ⟨e.1, e.2.1, by omega⟩
    | _ => refine ⟨by simp, by simp, ?_, by simp [h]⟩; intro i h1 h2; simp at h2; omega

theorem loop_ends (t : ℕ → Turn) (c : ℕ → Bool) (max : ℕ) : Ends t c max (loop t c max).1 (loop t c max).2 := by
  obtain ⟨a, b, d, e⟩ := go_spec t c (max - 1) 1
  refine ⟨a, ?_, d, ?_⟩
  · unfold loop; simp only [Nat.max_def]; split <;> omega
  · unfold loop
    revert e
    cases (go t c (max - 1) 1).2 <;> simp only <;> intro e <;> try exact e
    exact ⟨e.1, e.2.1, by omega⟩

theorem ends_unique {t : ℕ → Turn} {c : ℕ → Bool} {max k k' : ℕ} {h h' : How} (a : Ends t c max k h) (b : Ends t c max k' h') :
    k = k' ∧ h = h' := by
  have key : ∀ {k k' h h'}, Ends t c max k h → Ends t c max k' h' → ¬ k < k' := by
    intro k k' h h' a b hlt
    have := b.before k a.pos hlt
    have l := a.last
    have le := b.le
    simp only [Nat.max_def] at le
    have hp := a.pos
    cases h <;> simp_all
    split at le <;> omega
  have e : k = k' := by
    rcases Nat.lt_trichotomy k k' with h1 | h1 | h1
    · exact absurd h1 (key a b)
    · exact h1
    · exact absurd h1 (key b a)
  subst e
  refine ⟨rfl, ?_⟩
  have l := a.last
  have l' := b.last
  cases h <;> cases h' <;> simp_all

/-- C124. The status of a conjugate gradient search is 0 or -1, and it is 0 exactly when the last
iteration wasn't the last one allowed and no evaluation failed. -/
theorem C124_status_cg (t : ℕ → Turn) (c : ℕ → Bool) (max k : ℕ) (how : How) (h : Ends t c max k how) :
    statusCG t c max = if k ≠ max ∧ how ≠ .nan then 0 else -1 := by
  obtain ⟨e1, e2⟩ := ends_unique (loop_ends t c max) h
  unfold statusCG
  simp only [e1, e2]
  by_cases h1 : k = max <;> by_cases h2 : how = .nan <;> simp [h1, h2]

/-- C124. So: an optimum found before the last allowed iteration has status 0; running out of
iterations or a failed evaluation has status -1. -/
theorem C124_status_cg_cases (t : ℕ → Turn) (c : ℕ → Bool) (max k : ℕ) (how : How) (h : Ends t c max k how) :
    (how = .success → k < max → statusCG t c max = 0) ∧
    (how = .limit → 1 ≤ max → statusCG t c max = -1) ∧
    (how = .nan → statusCG t c max = -1) := by
  rw [C124_status_cg t c max k how h]
  refine ⟨?_, ?_, ?_⟩
  · rintro rfl hk; simp [Nat.ne_of_lt hk]
  · rintro rfl hm
    have := h.last
    have hl := h.le
    simp only [Nat.max_def] at hl
    have : k = max := by split at hl <;> omega
    simp [this]
  · rintro rfl; simp

/-- C124. The status of a simplex search is -1 exactly when an evaluation failed. -/
theorem C124_status_simplex (t : ℕ → Turn) (c : ℕ → Bool) (max k : ℕ) (how : How) (h : Ends t c max k how) :
    statusSimplex t c max = if how = .nan then -1 else 0 := by
  obtain ⟨e1, e2⟩ := ends_unique (loop_ends t c max) h
  unfold statusSimplex
  simp only [e1, e2]
  cases how <;> simp

/-- C124 (refutation of "status 0: optimum found"). A simplex search that runs out of iterations, or is
stopped by an error or by SIGINT, reports 0. -/
theorem C124_simplex_zero_refuted (t : ℕ → Turn) (c : ℕ → Bool) (max k : ℕ) (how : How) (h : Ends t c max k how)
    (hh : how = .limit ∨ how = .error ∨ how = .interrupted) : statusSimplex t c max = 0 := by
  rw [C124_status_simplex t c max k how h]
  rcases hh with rfl | rfl | rfl <;> simp

/-- C124 (refutation). A conjugate gradient search stopped by a GSL error or SIGINT before its last
iteration reports 0. -/
theorem C124_cg_zero_refuted (t : ℕ → Turn) (c : ℕ → Bool) (max k : ℕ) (how : How) (h : Ends t c max k how) (hk : k < max)
    (hh : how = .error ∨ how = .interrupted) : statusCG t c max = 0 := by
  rw [C124_status_cg t c max k how h]
  rcases hh with rfl | rfl <;> simp [Nat.ne_of_lt hk]

/-- C124 (refutation of "nonzero status: trouble"). An optimum found in the last allowed iteration is
reported as -1; a Newton search always reports -1. -/
theorem C124_nonzero_refuted (t : ℕ → Turn) (c : ℕ → Bool) (max : ℕ) :
    (Ends t c max max .success → statusCG t c max = -1) ∧ statusNewton t max = -1 := by
  refine ⟨fun h => ?_, by simp [statusNewton]⟩
  rw [C124_status_cg t c max max _ h]
  simp

example : Ends (fun i => if i = 3 then .success else .cont) (fun _ => false) 10 3 .success :=
  ⟨by omega, by decide, fun i h1 h2 => by simp; omega, by simp⟩
example : Ends (fun _ => .cont) (fun _ => false) 10 10 .limit :=
  ⟨by omega, by decide, fun i h1 h2 => by simp, by simp⟩
example : statusCG (fun i => if i = 3 then .success else .cont) (fun _ => false) 10 = 0 := by decide
example : statusSimplex (fun _ => .cont) (fun _ => false) 10 = 0 := by decide
example : statusCG (fun _ => .cont) (fun _ => false) 10 = -1 := by decide

/-! ## Which search, from where -/

/-- The searches. -/
inductive Algo | simplex | fr | bfgs | pr | anneal | newton | hybrid | hybrids | cycle
  deriving DecidableEq

/-- What `apop_maximum_likelihood` starts with: the method setting (NULL or a string), whether the model has a
score function, whether `dim_cycle_tolerance` is nonzero, the `starting_pt` setting (as much as there is of the
array), and the number of parameters (`none`: parameters not allocated). -/
structure Setup where
  method : Option CStr
  score : Bool
  cycle : Bool
  start : Option (List ℝ)
  size : Option ℕ

/-- `check_method`, apop_mle.m4.c:586-598: nonzero for unknown methods. -/
def checkMethod : Option CStr → Bool
  | none => false
  | some m =>
    if m.length = 0 then false
    else !(caseEq m (str "NM simplex") || caseEq m (str "FR cg") || caseEq m (str "BFGS cg") || caseEq m (str "PR cg") ||
      caseEq m (str "Annealing") || caseEq m (str "Newton") || caseEq m (str "Newton hybrid") || caseEq m (str "Newton hybrid no scale"))

/-- The default, apop_mle.m4.c:641. -/
def method (s : Setup) : CStr :=
  match s.method with
  | none => if s.score then str "FR cg" else str "NM simplex"
  | some m => if m.length = 0 then (if s.score then str "FR cg" else str "NM simplex") else m

/-- The branches at apop_mle.m4.c:652-660, and those inside `apop_maximum_likelihood_w_d` (433-438) and
`find_roots` (894-896). -/
def route (cyc : Bool) (m : CStr) : Algo :=
  if cyc then .cycle
  else if caseEq m (str "annealing") then .anneal
  else if caseEq m (str "NM simplex") then .simplex
  else if caseEq m (str "Newton") || caseEq m (str "Newton hybrid") || caseEq m (str "Newton hybrid no scale") then
    if caseEq m (str "Newton") then .newton
    else if caseEq m (str "Newton hybrid no scale") then .hybrids else .hybrid
  else if caseEq m (str "BFGS cg") then .bfgs
  else if caseEq m (str "PR cg") then .pr
  else .fr

/-- `setup_starting_point`, apop_mle.m4.c:370-376: all ones, or the first elements of the array given (reading past
a shorter one). -/
def startAt (start : Option (List ℝ)) (k : ℕ) : Res (List ℝ) :=
  match start with
  | none => .ok (List.replicate k 1)
  | some a => if a.length < k then .ub else .ok (a.take k)

/-- What happens: nothing (the method is unknown, or there are no parameters to search over: messages
only), error 'p', or a search. -/
inductive Launch where
  | nothing
  | errorP
  | search (a : Algo) (from_ : List ℝ)

/-- `apop_maximum_likelihood`, apop_mle.m4.c:635-661. -/
def launch (s : Setup) : Res Launch :=
  if checkMethod s.method then .ok .nothing
  else match s.size with
    | none => .ok .errorP
    | some 0 => .ok .nothing
    | some (k + 1) => (startAt s.start (k + 1)).bind fun b => .ok (.search (route s.cycle (method s)) b)

/-- The documented table of methods (apop.m4.h:1195-1217). -/
def table : List (CStr × Algo) :=
  [(str "NM simplex", .simplex), (str "FR cg", .fr), (str "BFGS cg", .bfgs), (str "PR cg", .pr), (str "Annealing", .anneal),
   (str "Newton", .newton), (str "Newton hybrid", .hybrid), (str "Newton hybrid no scale", .hybrids)]

theorem route_table : ∀ p ∈ table, ∀ m : CStr, caseEq m p.1 = true → route false m = p.2 ∧ m.length ≠ 0 ∧ checkMethod (some m) = false := by
  intro p hp m hm
  rw [caseEq_iff] at hm
  have hl : m.length = p.1.length := by
    have := congrArg List.length hm
    simpa using this
  simp only [table, List.mem_cons, List.not_mem_nil, or_false] at hp
  rcases hp with rfl | rfl | rfl | rfl | rfl | rfl | rfl | rfl <;>
    (simp only [] at hl hm
     refine ⟨?_, ?_, ?_⟩
     · simp only [route, caseEq, hm]; decide +kernel
     · rw [hl]; decide +kernel
     · have h0 : m.length ≠ 0 := by rw [hl]; decide +kernel
       simp only [checkMethod, h0, if_false, caseEq, hm]; decide +kernel)

/-- C125. Every method in the documented table, in any mix of case, runs its search (or cycles over dimensions if that
is asked for), from the starting point given, or from all ones. -/
theorem C125_method_table (s : Setup) (p : CStr × Algo) (hp : p ∈ table) (m : CStr) (hm : s.method = some m)
    (hcase : m.map lower = p.1.map lower) (k : ℕ) (hk : s.size = some (k + 1)) (hs : ∀ a, s.start = some a → k + 1 ≤ a.length) :
    launch s = .ok (.search (if s.cycle then .cycle else p.2)
      (match s.start with | none => List.replicate (k + 1) 1 | some a => a.take (k + 1))) := by
  obtain ⟨h1, h2, h3⟩ := route_table p hp m (caseEq_iff.2 hcase)
  have hr : route s.cycle (method s) = if s.cycle then .cycle else p.2 := by
    have : method s = m := by simp [method, hm]; intro h; simp [h] at h2
    rw [this]
    cases s.cycle with
    | true => simp [route]
    | false => simpa using h1
  unfold launch
  rw [hm, h3, hk]
  simp only [Bool.false_eq_true, if_false, hr]
  cases hst : s.start with
  | none => simp [startAt, Res.bind]
  | some a =>
    have := hs a hst
    have : ¬ a.length < k + 1 := by omega
    simp [startAt, this, Res.bind]

/-- C125. With no method (NULL or an empty string): conjugate gradients if the model has a score function, the simplex if not. -/
theorem C125_default (s : Setup) (hm : s.method = none ∨ s.method = some []) (hc : s.cycle = false) (hs : s.start = none) (k : ℕ) (hk : s.size = some (k + 1)) :
    launch s = .ok (.search (if s.score then .fr else .simplex) (List.replicate (k + 1) 1)) := by
  have h1 : checkMethod s.method = false := by rcases hm with h | h <;> simp [h, checkMethod]
  have h2 : method s = if s.score then str "FR cg" else str "NM simplex" := by
    rcases hm with h | h <;> simp [h, method]
  unfold launch
  rw [h1, hk, hs, hc, h2]
  cases s.score with
  | true =>
    have : route false (str "FR cg") = .fr := by decide +kernel
    simp [startAt, Res.bind, this]
  | false =>
    have : route false (str "NM simplex") = .simplex := by decide +kernel
    simp [startAt, Res.bind, this]

/-- C125. An unknown method: nothing is searched, and the model isn't even marked with an error. -/
theorem C125_unknown (s : Setup) (m : CStr) (hm : s.method = some m) (h0 : m ≠ [])
    (hu : ∀ p ∈ table, m.map lower ≠ p.1.map lower) : launch s = .ok .nothing := by
  have : checkMethod s.method = true := by
    rw [hm]
    have hl : m.length ≠ 0 := by simpa using h0
    simp only [table, List.forall_mem_cons] at hu
    obtain ⟨u1, u2, u3, u4, u5, u6, u7, u8, _⟩ := hu
    simp only [checkMethod, hl, if_false, caseEq]
    simp [u1, u2, u3, u4, u5, u6, u7, u8]
  simp [launch, this]

/-- C125 (refutation). A starting point shorter than the parameters is read past its end. -/
theorem C125_short_start_refuted (s : Setup) (hm : s.method = none) (a : List ℝ) (hs : s.start = some a) (k : ℕ) (hk : s.size = some (k + 1))
    (ha : a.length < k + 1) : launch s = .ub := by
  simp [launch, hm, checkMethod, hk, hs, startAt, ha, Res.bind]

example : launch ⟨some (str "nEwToN"), false, false, some [1, 2, 3], some 2⟩ = .ok (.search .newton [1, 2]) := by
  have := C125_method_table ⟨some (str "nEwToN"), false, false, some [1, 2, 3], some 2⟩ (str "Newton", .newton) (by simp [table])
    (str "nEwToN") rfl (by decide +kernel) 1 rfl (by simp)
  simpa using this
example : launch ⟨some (str "NM"), false, false, none, some 2⟩ = .ok .nothing :=
  C125_unknown _ (str "NM") rfl (by decide +kernel) (by decide +kernel)

/-! ## What is wanted -/

/-- The settings group `apop_parts_wanted`, each 'y' or not. -/
structure Parts where
  covariance : Bool
  predicted : Bool
  tests : Bool
  info : Bool

/-- What the search will report. -/
structure Desires where
  tests : Bool
  cov : Bool
  info : Bool
  predicted : Bool

/-- `get_desires`, apop_mle.m4.c:574-584. -/
def desires (w : Option Parts) : Desires :=
  let tests := match w with | some p => p.tests | none => false
  { tests := tests
    cov := tests || (match w with | some p => p.covariance | none => false)
    info := match w with | some p => p.info | none => true
    predicted := match w with | some p => p.predicted | none => false }

/-- C125. With a parts-wanted group, each part is reported iff asked for, but that tests bring the covariance; without
one, the information criteria only. -/
theorem C125_parts (w : Option Parts) :
    (∀ p, w = some p → ((desires w).info = true ↔ p.info = true) ∧ ((desires w).tests = true ↔ p.tests = true) ∧
      ((desires w).cov = true ↔ p.covariance = true ∨ p.tests = true)) ∧
    (w = none → (desires w).info = true ∧ (desires w).tests = false ∧ (desires w).cov = false) := by
  refine ⟨?_, ?_⟩
  · rintro p rfl
    refine ⟨Iff.rfl, Iff.rfl, ?_⟩
    simp [desires]; tauto
  · rintro rfl; simp [desires]

end Apop.Mle.Status
