import Verif.Mod.Prob
import Verif.Mcmc.Constraint

/-! # C170: `apop_update` by Markov chain (apop_update.m4.c:24-41, 191-224)

Parameters are given as the vector they are packed in (C21 is about packing). -/

namespace Apop.Update
open Apop.Mod Real MeasureTheory

/-- C's addition of doubles: infinity less infinity is NaN. -/
noncomputable def dadd : Dbl → Dbl → Dbl
  | .num x, .num y => if (x = ⊤ ∧ y = ⊥) ∨ (x = ⊥ ∧ y = ⊤) then .nan else .num (x + y)
  | _, _ => .nan

/-- The prior: its methods take the parameters as their data set. -/
structure Prior where
  m : Methods (List ℝ)
  /-- Its constraint; nothing here calls it. -/
  constraint : Option (List ℝ → ℝ) := none

/-- The likelihood: methods and constraint, given its parameters, and the parameters it holds now. -/
structure Likelihood (δ : Type) where
  m : List ℝ → Methods δ
  constraint : Option (List ℝ → δ → ℝ)
  params : List ℝ

variable {δ : Type}

/-- `apop_data_unpack(v, pl[1]->parameters)`, apop_update.m4.c:26-28: the product's parameters are put into the likelihood. -/
def put (θ : List ℝ) (l : Likelihood δ) : Likelihood δ := { l with params := θ }

/-- `product_ll`, apop_update.m4.c:24-30; the likelihood afterwards is returned as well. -/
noncomputable def productLl (pr : Prior) (l : Likelihood δ) (d : δ) (θ : List ℝ) : Dbl × Likelihood δ :=
  (dadd (logLikelihood θ (some pr.m)) (logLikelihood d (some ((put θ l).m (put θ l).params))), put θ l)

/-- `product_constraint`, apop_update.m4.c:32-38; `ub`: the call through a NULL pointer. -/
def productConstraint (_pr : Prior) (l : Likelihood δ) (d : δ) (θ : List ℝ) : Res (ℝ × Likelihood δ) :=
  match (put θ l).constraint with
  | none => .ub
  | some c => .ok (c (put θ l).params d, put θ l)

/-- What `apop_update` does. -/
inductive Route where
  | conjugate
  | sizeError
  | chain
  | nothing
  | draws
  deriving DecidableEq

/-- The choice of method, apop_update.m4.c:191-228. `inTable`: the conjugate table has an entry for the pair; `tsize`: the number of the likelihood's parameters. -/
def route (inTable : Bool) (dsize tsize : ℤ) (hasP hasLl hasDraw : Bool) : Route :=
  if inTable then .conjugate
  else if dsize ≠ tsize then .sizeError
  else if hasP || hasLl then .chain
  else if !hasDraw then .nothing
  else .draws

/-! ### Theorems -/

/-- **The method**: a table entry always wins; then sizes must agree; then a prior with a density goes to the chain, one with draws only to weighting, and one with none of these gives NULL. -/
theorem C170_route (inTable : Bool) (dsize tsize : ℤ) (hasP hasLl hasDraw : Bool) :
    (route inTable dsize tsize hasP hasLl hasDraw = .conjugate ↔ inTable = true) ∧
    (route inTable dsize tsize hasP hasLl hasDraw = .sizeError ↔ inTable = false ∧ dsize ≠ tsize) ∧
    (route inTable dsize tsize hasP hasLl hasDraw = .chain ↔ inTable = false ∧ dsize = tsize ∧ (hasP = true ∨ hasLl = true)) ∧
    (route inTable dsize tsize hasP hasLl hasDraw = .draws ↔ inTable = false ∧ dsize = tsize ∧ hasP = false ∧ hasLl = false ∧ hasDraw = true) ∧
    (route inTable dsize tsize hasP hasLl hasDraw = .nothing ↔ inTable = false ∧ dsize = tsize ∧ hasP = false ∧ hasLl = false ∧ hasDraw = false) := by
  by_cases h : dsize = tsize <;> cases inTable <;> cases hasP <;> cases hasLl <;> cases hasDraw <;> simp [route, h]

/-- **Prior times likelihood.** Where the prior's density of `θ` is `x` and the likelihood of the data given `θ` is `y` (not zero times infinity), the exponential of the product's log likelihood at `θ` is x·y, whatever parameters the likelihood held before; afterwards it holds `θ`. -/
theorem C170_product (pr : Prior) (l : Likelihood δ) (d : δ) (θ : List ℝ) (x y : ENNReal)
    (h1 : IsLogOf (logLikelihood θ (some pr.m)) (prob θ (some pr.m))) (h2 : IsLogOf (logLikelihood d (some (l.m θ))) (prob d (some (l.m θ))))
    (hx : prob θ (some pr.m) = .num (x : EReal)) (hy : prob d (some (l.m θ)) = .num (y : EReal)) (hok : ¬ (x = 0 ∧ y = ⊤) ∧ ¬ (x = ⊤ ∧ y = 0)) :
    cexp (productLl pr l d θ).1 = .num ((x * y : ENNReal) : EReal) ∧ (productLl pr l d θ).2.params = θ := by
  refine ⟨?_, rfl⟩
  have g : ∀ {a b : Dbl} {z : ENNReal}, IsLogOf a b → b = .num (z : EReal) → a = .num (ENNReal.log z) := by
    rintro a b z (⟨_, rfl⟩ | ⟨z', rfl, rfl⟩) hb
    · cases hb
    · simp only [Dbl.num.injEq, EReal.coe_ennreal_eq_coe_ennreal_iff] at hb
      rw [hb]
  have e1 := g h1 hx
  have e2 := g h2 hy
  simp only [productLl, put, e1, e2, dadd, ENNReal.log_eq_top_iff, ENNReal.log_eq_bot_iff]
  rw [if_neg (by tauto), ← ENNReal.log_mul_add]
  simp [cexp]

/-- A case. -/
example : cexp (productLl (δ := Unit) ⟨{ ll := some fun _ => .num 0 }, none⟩ ⟨fun _ => { p := some fun _ => .num 0 }, none, []⟩ () [1]).1 = .num ((1 * 0 : ENNReal) : EReal) := by
  refine (C170_product _ _ _ _ 1 0 ?_ ?_ ?_ ?_ ?_).1
  · exact C110_consistent _ _ (by simp) (by simp)
  · refine C110_consistent _ _ ?_ (by simp)
    rintro p h
    simp only [Option.some.injEq] at h
    subst h
    exact Or.inr ⟨0, by simp⟩
  · simp [prob, cexp]
  · simp [prob]
  · simp

/-- **Bayes.** With `n` parameters, a prior density `f` and a likelihood `L`, both positive, the chain that `apop_update` runs (all parameters proposed together, no constraint, Normal proposals of whatever variance) has the posterior, the density proportional to f·L, as its stationary distribution. -/
theorem C170_posterior (n : ℕ) (v : NNReal) (hv : v ≠ 0) (pr : Prior) (l : Likelihood δ) (d : δ) (f L : (Fin n → ℝ) → ℝ) (hf : ∀ x, 0 < f x) (hL : ∀ x, 0 < L x)
    (hfm : Measurable f) (hLm : Measurable L)
    (h1 : ∀ x : Fin n → ℝ, IsLogOf (logLikelihood (List.ofFn x) (some pr.m)) (prob (List.ofFn x) (some pr.m))) (h2 : ∀ x : Fin n → ℝ, IsLogOf (logLikelihood d (some (l.m (List.ofFn x)))) (prob d (some (l.m (List.ofFn x)))))
    (hx : ∀ x, prob (List.ofFn x) (some pr.m) = .num ((ENNReal.ofReal (f x) : ENNReal) : EReal)) (hy : ∀ x, prob d (some (l.m (List.ofFn x))) = .num ((ENNReal.ofReal (L x) : ENNReal) : EReal)) :
    ∃ ll : (Fin n → ℝ) → ℝ, (∀ x, (productLl pr l d (List.ofFn x)).1 = .num (ll x : EReal)) ∧
      ∀ A, MeasurableSet A → ∫⁻ x, ENNReal.ofReal (f x * L x) * Mcmc.trans volume ll (Mcmc.normalProposal n v) x A = ∫⁻ x in A, ENNReal.ofReal (f x * L x) := by
  refine ⟨fun x => log (f x * L x), fun x => ?_, fun A hA => ?_⟩
  · have hp := (C170_product pr l d (List.ofFn x) _ _ (h1 x) (h2 x) (hx x) (hy x) (by simp)).1
    rw [← ENNReal.ofReal_mul (hf x).le] at hp
    cases hq : (productLl pr l d (List.ofFn x)).1 with
    | nan => rw [hq] at hp; simp [cexp] at hp
    | num z =>
      rw [hq] at hp
      simp only [cexp, Dbl.num.injEq, EReal.coe_ennreal_eq_coe_ennreal_iff] at hp
      have := congrArg ENNReal.log hp
      rw [EReal.log_exp] at this
      rw [this, ENNReal.log_ofReal_of_pos (mul_pos (hf x) (hL x))]
  · have h := Mcmc.C72_normal_stationary n v hv (fun x => log (f x * L x)) (hfm.mul hLm).log A hA
    have e : ∀ x, exp (log (f x * L x)) = f x * L x := fun x => exp_log (mul_pos (hf x) (hL x))
    simpa only [e] using h

/-- The prior's constraint is not looked at; with a likelihood that has none, the chain's first proposal calls a NULL function. -/
theorem C170_constraint (pr : Prior) (l : Likelihood δ) (d : δ) (θ : List ℝ) :
    (∀ c, productConstraint { pr with constraint := c } l d θ = productConstraint pr l d θ) ∧
    (l.constraint = none → productConstraint pr l d θ = .ub) ∧
    (∀ c, l.constraint = some c → productConstraint pr l d θ = .ok (c θ d, put θ l)) := by
  refine ⟨fun c => rfl, fun h => ?_, fun c h => ?_⟩ <;> simp [productConstraint, put, h]

end Apop.Update
