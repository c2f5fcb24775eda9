import Verif.Mcmc.General
import Mathlib.Data.Matrix.Basic
import Mathlib.Tactic.Positivity
import Mathlib.Tactic.FieldSimp

/-! # C167: the default proposals and their adaptation (apop_mcmc.m4.c:11-32, 66-74, 124-137, 203-207)

Exact arithmetic. A block of `n` parameters. The matrix is written element by element, as GSL does. -/

namespace Apop.Mcmc.Adapt

variable {n : ℕ}

/-- `apop_mcmc_proposal_s` with the multivariate Normal it holds. -/
structure Prop_ (n : ℕ) where
  mean : Fin n → ℝ
  cov : Fin n → Fin n → ℝ
  accepts : ℕ
  rejects : ℕ

/-- `setup_normal_proposals`, apop_mcmc.m4.c:66-74: ones and the identity. -/
def setup (n : ℕ) : Prop_ n := ⟨fun _ => 1, fun i j => if i = j then 1 else 0, 0, 0⟩

/-- The factor by which the covariance is multiplied, apop_mcmc.m4.c:20-28. `P`: periods, `T`: target accept rate. -/
noncomputable def scale (P T : ℝ) (p : Prop_ n) : ℝ :=
  1 + ((p.accepts + 1 / 100 * P * T) / (p.accepts + p.rejects + 1 / 100 * P) / T - 1) / 100

/-- `sigma_adapt`, apop_mcmc.m4.c:18-32. -/
noncomputable def sigmaAdapt (P T : ℝ) (p : Prop_ n) : Prop_ n := { p with cov := fun i j => p.cov i j * scale P T p }

/-- `step_to_vector`, apop_mcmc.m4.c:11-16. -/
noncomputable def stepToVector (P T : ℝ) (d : Fin n → ℝ) (p : Prop_ n) : Prop_ n := sigmaAdapt P T { p with mean := d }

/-- What can happen to a block's proposal distribution in a run. -/
inductive Event (n : ℕ) where
  /-- A proposal is accepted, apop_mcmc.m4.c:125-129: the step function is called, then the acceptance is counted. -/
  | accept (d : Fin n → ℝ)
  /-- A proposal is rejected, apop_mcmc.m4.c:131. -/
  | reject
  /-- The loop calls the adapt function, apop_mcmc.m4.c:206 and :189. -/
  | adapt

/-- One event. -/
noncomputable def event (P T : ℝ) (p : Prop_ n) : Event n → Prop_ n
  | .accept d => { stepToVector P T d p with accepts := (stepToVector P T d p).accepts + 1 }
  | .reject => { p with rejects := p.rejects + 1 }
  | .adapt => sigmaAdapt P T p

/-- A history of events, the first first. -/
noncomputable def run (P T : ℝ) (es : List (Event n)) : Prop_ n := es.foldl (event P T) (setup n)

/-! ### Specification -/

/-- The last accepted state of the block: all ones before the first. -/
def lastAccepted (es : List (Event n)) : Fin n → ℝ := es.foldl (fun m e => match e with | .accept d => d | _ => m) fun _ => 1

/-- How many were accepted. -/
def countAcc : List (Event n) → ℕ
  | [] => 0
  | .accept _ :: es => countAcc es + 1
  | _ :: es => countAcc es

/-- How many were rejected. -/
def countRej : List (Event n) → ℕ
  | [] => 0
  | .reject :: es => countRej es + 1
  | _ :: es => countRej es

/-! ### Proofs -/

theorem scale_bounds (P T : ℝ) (hP : 0 < P) (hT : 0 < T) (p : Prop_ n) : 99 / 100 < scale P T p ∧ (T ≤ 1 → scale P T p ≤ 1 + (1 / T - 1) / 100) := by
  have hden : (0 : ℝ) < p.accepts + p.rejects + 1 / 100 * P := by positivity
  have hnum : (0 : ℝ) < p.accepts + 1 / 100 * P * T := by positivity
  unfold scale
  constructor
  · have : 0 < (p.accepts + 1 / 100 * P * T) / (p.accepts + p.rejects + 1 / 100 * P) / T := by positivity
    linarith
  · intro h1
    have h2 : (p.accepts + 1 / 100 * P * T) / (p.accepts + p.rejects + 1 / 100 * P) ≤ 1 := by
      rw [div_le_one hden]
      have : (0 : ℝ) ≤ p.rejects := by positivity
      nlinarith
    have h3 := div_le_div_of_nonneg_right h2 hT.le
    linarith

theorem run_snoc (P T : ℝ) (es : List (Event n)) (e : Event n) : run P T (es ++ [e]) = event P T (run P T es) e := by
  simp [run]

theorem countAcc_snoc (es : List (Event n)) (e : Event n) : countAcc (es ++ [e]) = countAcc es + countAcc [e] := by
  induction es with
  | nil => simp [countAcc]
  | cons a es ih => cases a <;> simp [countAcc, ih] <;> omega

theorem countRej_snoc (es : List (Event n)) (e : Event n) : countRej (es ++ [e]) = countRej es + countRej [e] := by
  induction es with
  | nil => simp [countRej]
  | cons a es ih => cases a <;> simp [countRej, ih] <;> omega

/-- **After any history** the proposal distribution is centred on the block's last accepted value, has independent components with one and the same positive variance, and its counts are right. -/
theorem C167_form (P T : ℝ) (hP : 0 < P) (hT : 0 < T) (es : List (Event n)) :
    (run P T es).mean = lastAccepted es ∧ (run P T es).accepts = countAcc es ∧ (run P T es).rejects = countRej es ∧
      ∃ v : ℝ, 0 < v ∧ ∀ i j, (run P T es).cov i j = if i = j then v else 0 := by
  induction es using List.reverseRecOn with
  | nil => exact ⟨rfl, rfl, rfl, 1, one_pos, fun i j => rfl⟩
  | append_singleton es e ih =>
    obtain ⟨h1, h2, h3, v, hv, h4⟩ := ih
    have hs := (scale_bounds P T hP hT (run P T es)).1
    rw [run_snoc, countAcc_snoc, countRej_snoc]
    have hl : lastAccepted (es ++ [e]) = (match e with | .accept d => d | _ => lastAccepted es) := by
      cases e <;> simp [lastAccepted]
    rw [hl]
    cases e with
    | accept d =>
      refine ⟨rfl, by simp [event, stepToVector, sigmaAdapt, countAcc, h2], by simp [event, stepToVector, sigmaAdapt, countRej, h3], v * scale P T (run P T es), by positivity, fun i j => ?_⟩
      simp only [event, stepToVector, sigmaAdapt, h4 i j]
      split <;> simp [scale]
    | reject =>
      refine ⟨h1, by simp [event, countAcc, h2], by simp [event, countRej, h3], v, hv, h4⟩
    | adapt =>
      refine ⟨h1, by simp [event, sigmaAdapt, countAcc, h2], by simp [event, sigmaAdapt, countRej, h3], v * scale P T (run P T es), by positivity, fun i j => ?_⟩
      simp only [event, sigmaAdapt, h4 i j]
      split <;> simp

/-- The variance after a history (that of the first component). -/
noncomputable def variance [NeZero n] (P T : ℝ) (es : List (Event n)) : ℝ := (run P T es).cov 0 0

/-- **The direction of adapting**: the proposals are widened exactly if more than the target share of the block's proposals so far were accepted, and narrowed exactly if fewer were. -/
theorem C167_direction [NeZero n] (P T : ℝ) (hP : 0 < P) (hT : 0 < T) (es : List (Event n)) :
    (variance P T es < variance P T (es ++ [.adapt]) ↔ T * (countAcc es + countRej es) < countAcc es) ∧
      (variance P T (es ++ [.adapt]) < variance P T es ↔ (countAcc es : ℝ) < T * (countAcc es + countRej es)) := by
  obtain ⟨_, h2, h3, v, hv, h4⟩ := C167_form P T hP hT es
  have hden : (0 : ℝ) < countAcc es + countRej es + 1 / 100 * P := by positivity
  have e0 : variance P T es = v := by rw [variance, h4]; simp
  have e1 : variance P T (es ++ [.adapt]) = v * scale P T (run P T es) := by
    rw [variance, run_snoc]
    simp [event, sigmaAdapt, h4]
  have key : ∀ a b : ℝ, a = (countAcc es : ℝ) → b = countRej es → (scale P T (run P T es) - 1) * (100 * T * (a + b + 1 / 100 * P)) = a - T * (a + b) := by
    rintro a b rfl rfl
    unfold scale
    rw [h2, h3]
    field_simp
    ring
  have hk := key _ _ rfl rfl
  have hc : 0 < 100 * T * ((countAcc es : ℝ) + countRej es + 1 / 100 * P) := by positivity
  rw [e0, e1]
  constructor
  · constructor
    · intro h
      have h5 : 1 < scale P T (run P T es) := by
        by_contra hn
        have := mul_le_mul_of_nonneg_left (not_lt.1 hn) hv.le
        linarith
      have := mul_pos (sub_pos.2 h5) hc
      linarith
    · intro h
      have h5 : 0 < (scale P T (run P T es) - 1) * (100 * T * ((countAcc es : ℝ) + countRej es + 1 / 100 * P)) := by linarith
      have := (pos_iff_pos_of_mul_pos h5).2 hc
      nlinarith
  · constructor
    · intro h
      have h5 : scale P T (run P T es) < 1 := by
        by_contra hn
        have := mul_le_mul_of_nonneg_left (not_lt.1 hn) hv.le
        linarith
      have := mul_neg_of_neg_of_pos (sub_neg.2 h5) hc
      linarith
    · intro h
      have h5 : scale P T (run P T es) - 1 < 0 := by
        by_contra hn
        have := mul_nonneg (not_lt.1 hn) hc.le
        linarith
      nlinarith

/-- One adaptation changes the variance by little: it never falls by one percent, and for a target at most one it never grows by more than (1/T − 1) percent. -/
theorem C167_little [NeZero n] (P T : ℝ) (hP : 0 < P) (hT : 0 < T) (es : List (Event n)) :
    99 / 100 * variance P T es < variance P T (es ++ [.adapt]) ∧ (T ≤ 1 → variance P T (es ++ [.adapt]) ≤ (1 + (1 / T - 1) / 100) * variance P T es) := by
  obtain ⟨_, h2, h3, v, hv, h4⟩ := C167_form P T hP hT es
  have e0 : variance P T es = v := by rw [variance, h4]; simp
  have e1 : variance P T (es ++ [.adapt]) = v * scale P T (run P T es) := by
    rw [variance, run_snoc]
    simp [event, sigmaAdapt, h4]
  obtain ⟨h5, h6⟩ := scale_bounds P T hP hT (run P T es)
  rw [e0, e1]
  constructor
  · nlinarith
  · intro h
    have := mul_le_mul_of_nonneg_left (h6 h) hv.le
    linarith

/-- At any point of any run, a step with the proposal distribution as it then is (whatever the history made of it) leaves the likelihood's distribution as it is: C72 applies. -/
theorem C167_stationary (P T : ℝ) (hP : 0 < P) (hT : 0 < T) (es : List (Event n)) (ll : (Fin n → ℝ) → ℝ) (hll : Measurable ll) (A : Set (Fin n → ℝ)) (hA : MeasurableSet A) :
    ∃ v : NNReal, v ≠ 0 ∧ (∀ i j, (run P T es).cov i j = if i = j then (v : ℝ) else 0) ∧
      (∫⁻ x, ENNReal.ofReal (Real.exp (ll x)) * trans MeasureTheory.volume ll (normalProposal n v) x A ∂MeasureTheory.volume) = ∫⁻ x in A, ENNReal.ofReal (Real.exp (ll x)) ∂MeasureTheory.volume := by
  obtain ⟨_, _, _, v, hv, h4⟩ := C167_form P T hP hT es
  have hne : (⟨v, hv.le⟩ : NNReal) ≠ 0 := by
    intro h
    have := congrArg NNReal.toReal h
    exact hv.ne' this
  exact ⟨⟨v, hv.le⟩, hne, h4, C72_normal_stationary n _ hne ll hll A hA⟩

/-- A case: the defaults, and a history. -/
example : (0 : ℝ) < 6000 ∧ (0 : ℝ) < 35 / 100 ∧ countAcc [Event.accept (fun _ : Fin 1 => 2), .adapt, .reject] = 1 ∧
    lastAccepted [Event.accept (fun _ : Fin 1 => 2), .adapt, .reject] 0 = 2 := ⟨by norm_num, by norm_num, rfl, rfl⟩

end Apop.Mcmc.Adapt
