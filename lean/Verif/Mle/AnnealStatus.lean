import Verif.Mle.Anneal
import Verif.Mle.Status

/-! # C124: the status of simulated annealing (apop_mle.m4.c:843-879) -/

namespace Apop.Mle.AnnealStatus

open Apop Apop.Mle Apop.Mle.Anneal

variable {n : ℕ}

/-- The status `apop_annealing` reports: zero once the solver is left without a NaN, by its end or by SIGINT (apop_mle.m4.c:854-875). -/
noncomputable def status (g : Cfg n) (start : P n) (rs : List Rand) (stop : Option ℕ) : ℤ := Status.statusAnneal (anneal g start rs stop).isNone

/-- **C124 (annealing).** The status is 0 if the search has a result and -1 if a likelihood evaluation failed; it is nothing else. -/
theorem C124_status_anneal (g : Cfg n) (start : P n) (rs : List Rand) (stop : Option ℕ) :
    (status g start rs stop = 0 ↔ ∃ o, anneal g start rs stop = some o) ∧ (status g start rs stop = -1 ↔ anneal g start rs stop = none) := by
  unfold status Status.statusAnneal
  cases h : anneal g start rs stop <;> simp

/-- **C124 (annealing, a NaN at the start).** -/
theorem C124_anneal_nan (g : Cfg n) (start : P n) (rs : List Rand) (stop : Option ℕ) (h : g.f (check g.c start) = none) : status g start rs stop = -1 := by
  rw [(C124_status_anneal g start rs stop).2]; simp [anneal, h]

/-- **C124 (refuted: status 0 means that an optimum was looked for).** Interrupted before the first move, the search reports 0. -/
theorem C124_anneal_interrupt_refuted (g : Cfg n) (start : P n) (rs : List Rand) (v : ℝ) (h : g.f (check g.c start) = some v) : status g start rs (some 0) = 0 := by
  rw [(C124_status_anneal g start rs (some 0)).1]; exact ⟨⟨check g.c start, max 0 v, _⟩, by simp [anneal, h, loop]; rfl⟩

example : ∃ g : Cfg 1, g.f (check g.c fun _ => 0) = some 2 := ⟨⟨fun _ => some 2, none, 1, fun _ => 1⟩, rfl⟩

end Apop.Mle.AnnealStatus
