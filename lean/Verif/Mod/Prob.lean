import Mathlib.Analysis.SpecialFunctions.Log.ENNRealLogExp

/-! # `apop_p`, `apop_log_likelihood` (apop_model.m4.c:236-265) -- C110

A `double` is an extended real number, or NaN. Arithmetic is exact: `exp` and `log` are the functions on the extended
reals (`log 0 = -∞`, `exp (-∞) = 0`, `exp ∞ = ∞`, the logarithm of a negative number is NaN). -/

namespace Apop.Mod

/-- A `double`. -/
inductive Dbl where
  | nan
  | num (x : EReal)

/-- C's `exp`. -/
noncomputable def cexp : Dbl → Dbl
  | .nan => .nan
  | .num x => .num (EReal.exp x : ENNReal)

open Classical in
/-- C's `log`. -/
noncomputable def clog : Dbl → Dbl
  | .nan => .nan
  | .num x => if 0 ≤ x then .num (ENNReal.log x.toENNReal) else .nan

/-- The two methods of a model (apop.m4.h:95-130); `δ` is the type of data sets, parameters are part of the method. -/
structure Methods (δ : Type) where
  p : Option (δ → Dbl) := none
  ll : Option (δ → Dbl) := none

variable {δ : Type}

/-- `apop_p`, apop_model.m4.c:241-249. `none` is the NULL model. -/
noncomputable def prob (d : δ) : Option (Methods δ) → Dbl
  | none => .nan
  | some m => match m.p, m.ll with
    | some p, _ => p d
    | none, some l => cexp (l d)
    | none, none => .nan

/-- `apop_log_likelihood`, apop_model.m4.c:256-264. -/
noncomputable def logLikelihood (d : δ) : Option (Methods δ) → Dbl
  | none => .nan
  | some m => match m.ll, m.p with
    | some l, _ => l d
    | none, some p => clog (p d)
    | none, none => .nan

/-! ## Specification -/

/-- `l` is the log of the probability `p`: both NaN, or `p` is a nonnegative number (perhaps infinite), and `l` its log. -/
def IsLogOf (l p : Dbl) : Prop :=
  (l = .nan ∧ p = .nan) ∨ ∃ x : ENNReal, p = .num (x : EReal) ∧ l = .num (ENNReal.log x)

/-- A method returning nonnegative numbers or NaN. -/
def Nonneg (v : Dbl) : Prop := v = .nan ∨ ∃ x : ENNReal, v = .num (x : EReal)

theorem clog_of_ennreal (x : ENNReal) : clog (.num (x : EReal)) = .num (ENNReal.log x) := by
  simp [clog, EReal.coe_ennreal_nonneg]

/-- **C110**: for a model with one of the two methods (nonnegative if it is `p`), `apop_log_likelihood` is the log of
`apop_p` for every data set; with both methods each function returns its own method's value, and the two agree if the
methods do; with neither, or for a NULL model, both are NaN. -/
theorem C110_consistent (m : Methods δ) (d : δ)
    (hp : ∀ p, m.p = some p → Nonneg (p d))
    (hboth : ∀ p l, m.p = some p → m.ll = some l → IsLogOf (l d) (p d)) :
    IsLogOf (logLikelihood d (some m)) (prob d (some m)) := by
  rcases hmp : m.p with _ | p <;> rcases hml : m.ll with _ | l <;> simp only [logLikelihood, prob, hmp, hml]
  · exact Or.inl ⟨rfl, rfl⟩
  · rcases hv : l d with _ | x
    · exact Or.inl ⟨rfl, rfl⟩
    · exact Or.inr ⟨EReal.exp x, rfl, by rw [EReal.log_exp]⟩
  · rcases hp p hmp with h | ⟨x, h⟩
    · rw [h]; exact Or.inl ⟨rfl, rfl⟩
    · rw [h, clog_of_ennreal]; exact Or.inr ⟨x, rfl, rfl⟩
  · exact hboth p l hmp hml

/-- **C110, a given method is called as it is**: neither function goes through the other's method when its own exists. -/
theorem C110_own (m : Methods δ) (d : δ) :
    (∀ p, m.p = some p → prob d (some m) = p d) ∧ (∀ l, m.ll = some l → logLikelihood d (some m) = l d) ∧
    (m.p = none → m.ll = none → prob d (some m) = .nan ∧ logLikelihood d (some m) = .nan) ∧
    prob d (none : Option (Methods δ)) = .nan ∧ logLikelihood d (none : Option (Methods δ)) = .nan := by
  refine ⟨?_, ?_, ?_, rfl, rfl⟩
  · intro p h; simp [prob, h]
  · intro l h; simp [logLikelihood, h]
  · intro h1 h2; simp [prob, logLikelihood, h1, h2]

theorem coe_le_coe {a b : ENNReal} : (a : EReal) ≤ (b : EReal) ↔ a ≤ b := EReal.coe_ennreal_le_coe_ennreal_iff

/-- **C110, order**: for a model with one method (a number for both data sets), a data set is at least as likely by
`apop_p` as another exactly when it is by `apop_log_likelihood`: maximising either is the same. -/
theorem C110_order (m : Methods δ) (d d' : δ) (h1 : m.p = none ∨ m.ll = none)
    (p p' l l' : EReal) (hp : prob d (some m) = .num p) (hp' : prob d' (some m) = .num p')
    (hl : logLikelihood d (some m) = .num l) (hl' : logLikelihood d' (some m) = .num l')
    (hn : ∀ q, m.p = some q → Nonneg (q d) ∧ Nonneg (q d')) : p ≤ p' ↔ l ≤ l' := by
  have c := C110_consistent m d (fun q h => (hn q h).1) (fun p l a b => by rcases h1 with h | h <;> simp_all)
  have c' := C110_consistent m d' (fun q h => (hn q h).2) (fun p l a b => by rcases h1 with h | h <;> simp_all)
  rw [hp, hl] at c
  rw [hp', hl'] at c'
  rcases c with ⟨h, _⟩ | ⟨x, hx, hx'⟩
  · cases h
  rcases c' with ⟨h, _⟩ | ⟨y, hy, hy'⟩
  · cases h
  cases hx; cases hx'; cases hy; cases hy'
  rw [coe_le_coe]
  exact ENNReal.log_le_log_iff.symm

/-- A model with only a log likelihood, and one with only a density of zero: the log is minus infinity. -/
example : prob () (some { ll := some (fun _ => .num 0) }) = .num 1 ∧
    logLikelihood () (some { p := some (fun _ => .num 0) }) = .num ⊥ := by
  constructor
  · simp [prob, cexp]
  · simp [logLikelihood, clog]

/-- A `p` method returning a negative number (the code does not check) has a NaN log likelihood. -/
theorem C110_negative (m : Methods δ) (d : δ) (p : δ → Dbl) (hm : m.p = some p) (hl : m.ll = none) (x : EReal) (hx : x < 0)
    (h : p d = .num x) : logLikelihood d (some m) = .nan := by
  simp [logLikelihood, hm, hl, h, clog, not_le.mpr hx]

end Apop.Mod
