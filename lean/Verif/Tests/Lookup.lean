import Mathlib.Data.Real.Basic
import Mathlib.Tactic.Linarith
import Mathlib.Tactic.FieldSimp
import Mathlib.Tactic.Ring
import Mathlib.Tactic.NormNum
import Mathlib.Tactic.Positivity
import Mathlib.Tactic.Tauto

/-! # C102: looking up a p value -/

namespace Apop.Lookup

/-! ## The model (exact arithmetic) -/

/-- GSL's distribution functions: lower (`P`) and upper (`Q`) tails. -/
structure Gsl where
  gaussianP : ℝ → ℝ → ℝ
  gaussianQ : ℝ → ℝ → ℝ
  lognormalP : ℝ → ℝ → ℝ → ℝ
  lognormalQ : ℝ → ℝ → ℝ → ℝ
  tP : ℝ → ℝ → ℝ
  tQ : ℝ → ℝ → ℝ
  fP : ℝ → ℝ → ℝ → ℝ
  fQ : ℝ → ℝ → ℝ → ℝ
  chisqP : ℝ → ℝ → ℝ
  chisqQ : ℝ → ℝ → ℝ

/-- `gsl_cdf_flat_Q` and `_P`: the uniform distribution from a to b. -/
noncomputable def flatQ (x a b : ℝ) : ℝ := by classical exact if x < a then 1 else if x ≥ b then 0 else (b - x) / (b - a)
noncomputable def flatP (x a b : ℝ) : ℝ := by classical exact if x < a then 0 else if x ≥ b then 1 else (x - a) / (b - a)

/-- What comes back: a number, NaN, or nothing, a NULL pointer having been read. -/
inductive Outcome where
  | num (x : ℝ)
  | nan
  | crash

/-- `!strcasecmp(a, b)`, for a `b` in lower case. -/
def same (a b : String) : Bool := a.toList.map Char.toLower = b.toList

/-- The distributions that have a name. -/
inductive Kind where
  | normal
  | lognormal
  | t
  | f
  | chi
  | uniform
  | other
  deriving DecidableEq

/-- The comparisons with names, in the order of apop_tests.m4.c:450, 458, 466, 474, 482-483 and 491. As no two of the names are the same, the comparisons in lines 434-442 are the same questions. -/
def kind (d : String) : Kind :=
  if same d "normal" || same d "gaussian" then .normal
  else if same d "lognormal" then .lognormal
  else if same d "t" then .t
  else if same d "f" then .f
  else if same d "chi squared" || same d "chi" || same d "chisq" then .chi
  else if same d "uniform" then .uniform
  else .other

/-- The choice of the tail: `anything else` is the third. -/
def pick (tail : Char) (u l other : ℝ) : ℝ := if tail = 'u' then u else if tail = 'l' then l else other

/-- The function itself, apop_tests.m4.c:448-503. `Apop_assert` that fails returns 0 (apop.m4.h:642). -/
noncomputable def base (G : Gsl) (s : ℝ) (d : Kind) (p1 p2 : ℝ) (tail : Char) : ℝ :=
  match d with
  | .normal => pick tail (G.gaussianQ (p1 - s) p2) (G.gaussianP (p1 - s) p2) (2 * G.gaussianQ |p1 - s| p2)
  | .lognormal => pick tail (G.lognormalQ s p1 p2) (G.lognormalP s p1 p2) 0
  | .t => pick tail (G.tQ s p1) (G.tP s p1) (2 * G.tQ |s| p1)
  | .f => pick tail (G.fQ s p1 p2) (G.fP s p1 p2) 0
  | .chi => pick tail (G.chisqQ s p1) (G.chisqP s p1) 0
  | .uniform => pick tail (flatQ s p1 p2) (flatP s p1 p2) (2 * flatQ |s - (p1 + p2) / 2| p1 p2)
  | .other => 0

/-- The second parameter, lines 439-442. -/
noncomputable def defaultP2 (d : Kind) (p1 p2 : ℝ) : ℝ := by
  classical exact if p2 = 0 ∧ d = .normal then 1 else if p2 = 0 ∧ 0 ≤ p1 ∧ d = .uniform then 1 else p2

/-- The tail, lines 444-445; a zero: not given. -/
def defaultTail (d : Kind) (tail : Char) : Char := if tail = '\x00' then (if d = .chi then 'u' else 'a') else tail

/-- `apop_test` for a distribution, apop_tests.m4.c:436-447. -/
noncomputable def header (G : Gsl) (s : ℝ) (d : Kind) (p1 p2 : ℝ) (tail : Char) : Outcome := by
  classical exact
    if d = .f ∧ (p1 = 0 ∨ p2 = 0) then .nan
    else if (d = .t ∨ d = .f ∨ d = .chi) ∧ p1 = 0 then .nan
    else .num (base G s d p1 (defaultP2 d p1 p2) (defaultTail d tail))

/-- `apop_test`, apop_tests.m4.c:429-504. What is not given is zero; no name of a distribution is `none`, and it is compared at once. -/
noncomputable def apopTest (G : Gsl) (s : ℝ) (distribution : Option String) (p1 p2 : ℝ) (tail : Char) : Outcome :=
  match distribution with
  | none => .crash
  | some d => header G s (kind d) p1 p2 tail

/-! ## Specification -/

/-- A lower and an upper tail that belong together. -/
structure Tails (P Q : ℝ → ℝ) : Prop where
  sum : ∀ x, P x + Q x = 1
  nonneg : ∀ x, 0 ≤ P x ∧ 0 ≤ Q x
  anti : Antitone Q
  symm : ∀ x, Q (-x) = P x

/-! ## Proofs -/

theorem kinds : kind "normal" = .normal ∧ kind "gaussian" = .normal ∧ kind "lognormal" = .lognormal ∧ kind "t" = .t ∧ kind "f" = .f ∧
    kind "chi squared" = .chi ∧ kind "chi" = .chi ∧ kind "chisq" = .chi ∧ kind "uniform" = .uniform := by decide +kernel

/-- **C102 (one tail).** For the t, F and χ² distributions with degrees of freedom, the lognormal and the uniform: with `u` the mass above the statistic, with `l` that below it; χ² tests are upper-tailed if nothing is said. -/
theorem C102_one_tail (G : Gsl) (s p1 p2 : ℝ) (h1 : p1 ≠ 0) (h2 : p2 ≠ 0) :
    apopTest G s (some "t") p1 0 'u' = .num (G.tQ s p1) ∧ apopTest G s (some "t") p1 0 'l' = .num (G.tP s p1) ∧
    apopTest G s (some "f") p1 p2 'u' = .num (G.fQ s p1 p2) ∧ apopTest G s (some "f") p1 p2 'l' = .num (G.fP s p1 p2) ∧
    (∀ d ∈ ["chi squared", "chi", "chisq"], apopTest G s (some d) p1 0 'u' = .num (G.chisqQ s p1) ∧ apopTest G s (some d) p1 0 'l' = .num (G.chisqP s p1) ∧
      apopTest G s (some d) p1 0 '\x00' = .num (G.chisqQ s p1)) ∧
    apopTest G s (some "lognormal") p1 p2 'u' = .num (G.lognormalQ s p1 p2) ∧ apopTest G s (some "lognormal") p1 p2 'l' = .num (G.lognormalP s p1 p2) ∧
    apopTest G s (some "uniform") p1 p2 'u' = .num (flatQ s p1 p2) ∧ apopTest G s (some "uniform") p1 p2 'l' = .num (flatP s p1 p2) := by
  obtain ⟨k1, k2, k3, k4, k5, k6, k7, k8, k9⟩ := kinds
  refine ⟨?_, ?_, ?_, ?_, ?_, ?_, ?_, ?_, ?_⟩
  all_goals simp [apopTest, k3, k4, k5, k6, k7, k8, k9, header, h1, h2, base, defaultP2, defaultTail, pick]

/-- **C102 (defaults).** The standard normal distribution needs no parameters, a uniform one is from 0 to 1; without degrees of freedom the result for t, F and χ² is NaN. -/
theorem C102_defaults (G : Gsl) (s : ℝ) (tail : Char) :
    (∀ d ∈ ["normal", "gaussian"], apopTest G s (some d) 0 0 tail = apopTest G s (some d) 0 1 tail) ∧ apopTest G s (some "uniform") 0 0 tail = apopTest G s (some "uniform") 0 1 tail ∧
    (∀ d ∈ ["t", "f", "chi squared", "chi", "chisq"], apopTest G s (some d) 0 0 tail = .nan) ∧ ∀ p1, apopTest G s (some "f") p1 0 tail = .nan := by
  obtain ⟨k1, k2, k3, k4, k5, k6, k7, k8, k9⟩ := kinds
  refine ⟨?_, ?_, ?_, ?_⟩
  all_goals simp [apopTest, k1, k2, k4, k5, k6, k7, k8, k9, header, defaultP2]

/-- **C102 (case).** The names may be in any case. -/
theorem C102_case (G : Gsl) (s p1 p2 : ℝ) (tail : Char) (d d' : String) (h : d.toList.map Char.toLower = d'.toList.map Char.toLower) : apopTest G s (some d) p1 p2 tail = apopTest G s (some d') p1 p2 tail := by
  have hs : ∀ b, same d b = same d' b := by intro b; unfold same; rw [h]
  have : kind d = kind d' := by unfold kind; simp only [hs]
  unfold apopTest
  simp only [this]

theorem half {P Q : ℝ → ℝ} (h : Tails P Q) (x : ℝ) : 0 ≤ 2 * Q |x| ∧ 2 * Q |x| ≤ 1 ∧ 2 * Q |x| = P (-|x|) + Q |x| := by
  have hs := h.symm |x|
  have hp : P (-|x|) = Q |x| := by rw [← h.symm (-|x|), neg_neg]
  have hq : Q |x| ≤ Q (-|x|) := h.anti (by linarith [abs_nonneg x])
  have := h.sum |x|
  refine ⟨by linarith [(h.nonneg |x|).2], by linarith, by rw [hp]; ring⟩

/-- **C102 (two tails).** For the normal and the t distribution the default is the mass outside: as far from the centre as the statistic, or farther, on either side; it is between 0 and 1. -/
theorem C102_two_tails (G : Gsl) (s mu sigma df : ℝ) (hs : sigma ≠ 0) (hdf : df ≠ 0) (hn : Tails (G.gaussianP · sigma) (G.gaussianQ · sigma)) (ht : Tails (G.tP · df) (G.tQ · df)) :
    (∀ d ∈ ["normal", "gaussian"], ∃ p, apopTest G s (some d) mu sigma '\x00' = .num p ∧ p = G.gaussianP (-|s - mu|) sigma + G.gaussianQ |s - mu| sigma ∧ 0 ≤ p ∧ p ≤ 1) ∧
    ∃ p, apopTest G s (some "t") df 0 '\x00' = .num p ∧ p = G.tP (-|s|) df + G.tQ |s| df ∧ 0 ≤ p ∧ p ≤ 1 := by
  obtain ⟨k1, k2, k3, k4, k5, k6, k7, k8, k9⟩ := kinds
  refine ⟨?_, ?_⟩
  · have := half hn (mu - s)
    rw [abs_sub_comm mu s] at this
    intro d hd
    simp only [List.mem_cons, List.not_mem_nil, or_false] at hd
    have hk : kind d = .normal := by rcases hd with rfl | rfl <;> assumption
    refine ⟨2 * G.gaussianQ |s - mu| sigma, ?_, this.2.2, this.1, this.2.1⟩
    rw [abs_sub_comm s mu]
    simp [apopTest, hk, header, defaultP2, hs, defaultTail, base, pick]
  · have := half ht s
    refine ⟨2 * G.tQ |s| df, ?_, this.2.2, this.1, this.2.1⟩
    simp [apopTest, k4, header, defaultP2, hdf, defaultTail, base, pick]

/-- **C102 (one tail of the normal) fails**: the tails are exchanged: with `u` the result is the mass *below* the statistic, with `l` that above it. -/
theorem C102_normal_refuted (G : Gsl) (s mu sigma : ℝ) (hs : sigma ≠ 0) (hn : Tails (G.gaussianP · sigma) (G.gaussianQ · sigma)) :
    apopTest G s (some "normal") mu sigma 'u' = .num (G.gaussianP (s - mu) sigma) ∧ apopTest G s (some "normal") mu sigma 'l' = .num (G.gaussianQ (s - mu) sigma) := by
  obtain ⟨k1, k2, k3, k4, k5, k6, k7, k8, k9⟩ := kinds
  have e1 : G.gaussianQ (mu - s) sigma = G.gaussianP (s - mu) sigma := by
    rw [← neg_sub s mu]; exact hn.symm (s - mu)
  have e2 : G.gaussianP (mu - s) sigma = G.gaussianQ (s - mu) sigma := by
    have := hn.symm (mu - s)
    rw [← this, neg_sub]
  constructor
  · rw [← e1]; simp [apopTest, k1, header, defaultP2, hs, defaultTail, base, pick]
  · rw [← e2]; simp [apopTest, k1, header, defaultP2, hs, defaultTail, base, pick]

/-- **C102 (two tails of the uniform) fails**: for a statistic anywhere in the standard uniform distribution's range the p value is 2 - 2|s - 1/2|, one or more, and two in the middle. -/
theorem C102_uniform_refuted (G : Gsl) (s : ℝ) (h0 : 0 ≤ s) (h1 : s ≤ 1) : ∃ p, apopTest G s (some "uniform") 0 1 '\x00' = .num p ∧ p = 2 - 2 * |s - 1 / 2| ∧ 1 ≤ p := by
  obtain ⟨k1, k2, k3, k4, k5, k6, k7, k8, k9⟩ := kinds
  have hle : |s - 1 / 2| ≤ 1 / 2 := abs_le.2 ⟨by linarith, by linarith⟩
  refine ⟨2 - 2 * |s - 1 / 2|, ?_, rfl, by linarith⟩
  have e : flatQ |s - 1 / 2| 0 1 = 1 - |s - 1 / 2| := by
    unfold flatQ
    rw [if_neg (not_lt.2 (abs_nonneg _)), if_neg (by linarith)]
    simp
  have : apopTest G s (some "uniform") 0 1 '\x00' = .num (2 * flatQ |s - (0 + 1) / 2| 0 1) := by
    simp [apopTest, k9, header, defaultP2, defaultTail, base, pick]
  rw [this, zero_add, e]
  congr 1
  ring

/-- **C102 (no distribution) fails**: a NULL pointer is read, though it stands in the documentation as the first example, for the standard normal distribution. -/
theorem C102_null_refuted (G : Gsl) (s p1 p2 : ℝ) (tail : Char) : apopTest G s none p1 p2 tail = .crash := rfl

/-- **C102 (no answer) fails**: a name that is not known, and a two-tailed test of a distribution that has none, give the p value 0: as significant as can be. -/
theorem C102_zero_refuted (G : Gsl) (s p1 p2 : ℝ) (h1 : p1 ≠ 0) (h2 : p2 ≠ 0) (tail : Char) :
    (∀ d, kind d = .other → apopTest G s (some d) p1 p2 tail = .num 0) ∧ apopTest G s (some "f") p1 p2 '\x00' = .num 0 ∧ apopTest G s (some "lognormal") p1 p2 '\x00' = .num 0 := by
  obtain ⟨k1, k2, k3, k4, k5, k6, k7, k8, k9⟩ := kinds
  refine ⟨?_, ?_, ?_⟩
  · intro d hd
    simp [apopTest, hd, header, base]
  · simp [apopTest, k5, header, h1, h2, defaultTail, base, pick]
  · simp [apopTest, k3, header, defaultTail, base, pick]

/-- **C102 (lognormal defaults) fails**: documented are 0 and 1; the second stays zero. -/
theorem C102_lognormal_refuted (G : Gsl) (s : ℝ) : apopTest G s (some "lognormal") 0 0 'u' = .num (G.lognormalQ s 0 0) := by
  obtain ⟨k1, k2, k3, k4, k5, k6, k7, k8, k9⟩ := kinds
  simp [apopTest, k3, header, defaultP2, defaultTail, base, pick]

/-- Nonvacuity: a name that is not known; and tails as asked for. -/
example : kind "cauchy" = .other := by decide +kernel

example : Tails (fun x : ℝ => if x < 0 then 0 else if x = 0 then 1 / 2 else 1) (fun x => if x < 0 then 1 else if x = 0 then 1 / 2 else 0) := by
  refine ⟨?_, ?_, ?_, ?_⟩
  · intro x
    rcases lt_trichotomy x 0 with h | h | h
    · simp [h]
    · simp [h]; norm_num
    · simp [not_lt.2 h.le, h.ne']
  · intro x
    rcases lt_trichotomy x 0 with h | h | h
    · simp [h]
    · simp [h]
    · simp [not_lt.2 h.le, h.ne']
  · intro x y hxy
    rcases lt_trichotomy x 0 with h | h | h <;> rcases lt_trichotomy y 0 with h' | h' | h'
    · simp [h, h']
    · simp [h, h']; norm_num
    · simp [h, not_lt.2 h'.le, h'.ne']
    · linarith
    · simp [h, h']
    · simp [h, not_lt.2 h'.le, h'.ne']
    · linarith
    · linarith
    · simp [not_lt.2 h.le, h.ne', not_lt.2 h'.le, h'.ne']
  · intro x
    rcases lt_trichotomy x 0 with h | h | h
    · simp [h, not_lt.2 h.le, h.ne]
    · simp [h]
    · simp [h, not_lt.2 h.le, h.ne']

end Apop.Lookup
