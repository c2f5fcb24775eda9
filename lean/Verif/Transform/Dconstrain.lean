import Verif.Stats.Distance
import Mathlib.Analysis.SpecialFunctions.Log.Basic
import Mathlib.Analysis.SpecificLimits.Basic
import Mathlib.MeasureTheory.Integral.Bochner.Set

/-! # C80: data-constrained models -/

namespace Apop.Dcons
open Real Stats

/-- What the settings group remembers: `last_params` and `scale` (zero: not yet known). -/
structure S where
  last : Option (List ℝ)
  scale : ℝ

/-- The base model as the constrained model uses it: the log likelihood of a set of rows (`none` is minus infinity) and the share of its density inside the constraint, for each packed parameter set. -/
structure Base (R : Type) where
  ll : List ℝ → List R → Option ℝ
  scaling : List ℝ → ℝ
  constraint : R → Bool

variable {R : Type}

/-! ## The models -/

/-- `is_stale`, transform/apop_dconstrain.c:92-113, for a model with parameters: is the scale to be found anew, and the new `last_params`. -/
noncomputable def isStale (s : S) (params : List ℝ) : Bool × Option (List ℝ) :=
  match s.last with
  | none => (true, some params)
  | some l =>
    if l.length ≠ params.length then (true, some params)
    else if distanceOf l params 'e' 2 ≠ some 0 then (true, some params)
    else (decide (s.scale = 0), some l)

/-- `dc_ll`, transform/apop_dconstrain.c:119-122: the scale after the test. -/
noncomputable def newScale (b : Base R) (s : S) (params : List ℝ) : S :=
  ⟨(isStale s params).2, if (isStale s params).1 then b.scaling params else s.scale⟩

/-- `dc_ll`, transform/apop_dconstrain.c:115-124. -/
noncomputable def dcLl (b : Base R) (s : S) (params : List ℝ) (rows : List R) : Option ℝ × S :=
  if (rows.map fun r => if b.constraint r then (0 : ℕ) else 1).sum ≠ 0 then (none, s)
  else ((b.ll params rows).map fun l => l - log (newScale b s params).scale * rows.length, newScale b s params)

/-- A run of evaluations, each with its own parameters and data: the last one's answer. -/
noncomputable def run (b : Base R) : S → List (List ℝ × List R) → List (Option ℝ)
  | _, [] => []
  | s, (p, d) :: cs => (dcLl b s p d).1 :: run b (dcLl b s p d).2 cs

/-- `dc_rng`, transform/apop_dconstrain.c:74-82, on the stream of draws of the base model: `none` if the stream ends first. -/
def dcRng (constraint : R → Bool) : List R → Option R
  | [] => none
  | x :: xs => if constraint x then some x else dcRng constraint xs

/-- `get_scaling`, transform/apop_dconstrain.c:40-51, on the draws it makes. -/
noncomputable def getScaling (constraint : R → Bool) (draws : List R) : ℝ := ((draws.map fun r => if constraint r then (1 : ℕ) else 0).sum : ℕ) / draws.length

/-! ## Proofs -/

theorem distance_zero {l p : List ℝ} (h : l.length = p.length) : distanceOf l p 'e' 2 = some 0 ↔ l = p := by
  have hm := C57_metric_euclid p.length 2
  constructor
  · intro h0
    exact (hm.zero l p h rfl).1 h0
  · rintro rfl
    exact (hm.zero l l h rfl).2 rfl

/-- What is kept true of the settings. -/
def Ok (b : Base R) (s : S) : Prop := (s.last = none ∧ s.scale = 0) ∨ ∃ l, s.last = some l ∧ s.scale = b.scaling l

theorem newScale_ok (b : Base R) {s : S} (h : Ok b s) (p : List ℝ) : (newScale b s p).scale = b.scaling p ∧ Ok b (newScale b s p) := by
  have key : (newScale b s p).scale = b.scaling p ∧ (newScale b s p).last = some p := by
    unfold newScale isStale
    rcases h with ⟨h1, h2⟩ | ⟨l, h1, h2⟩
    · simp [h1]
    · by_cases hl : l.length = p.length
      · by_cases hd : distanceOf l p 'e' 2 = some 0
        · have := (distance_zero hl).1 hd
          subst this
          simp [h1, h2, hd]
        · simp [h1, hl, hd]
      · simp [h1, hl]
  exact ⟨key.1, Or.inr ⟨p, key.2, key.1⟩⟩

theorem count_zero (c : R → Bool) (rows : List R) : (rows.map fun r => if c r then (0 : ℕ) else 1).sum = 0 ↔ ∀ r ∈ rows, c r = true := by
  simp [List.sum_eq_zero_iff]

/-- **C80 (log likelihood, histories).** In any sequence of evaluations with any parameters and data, starting from fresh settings, each answer is: minus infinity if a row is outside the constraint, else the base model's log likelihood at those parameters less, for each row, the log of the share inside at those parameters. The remembered scale is never out of date. -/
theorem C80_history (b : Base R) (cs : List (List ℝ × List R)) :
    run b ⟨none, 0⟩ cs = cs.map fun c => by
      classical exact if ∀ r ∈ c.2, b.constraint r = true then (b.ll c.1 c.2).map (fun l => l - c.2.length * log (b.scaling c.1)) else none := by
  have gen : ∀ (cs : List (List ℝ × List R)) (s : S), Ok b s → run b s cs = cs.map fun c => by
      classical exact if ∀ r ∈ c.2, b.constraint r = true then (b.ll c.1 c.2).map (fun l => l - c.2.length * log (b.scaling c.1)) else none := by
    intro cs
    induction cs with
    | nil => intro s _; rfl
    | cons c cs ih =>
      intro s hs
      obtain ⟨p, d⟩ := c
      obtain ⟨h1, h2⟩ := newScale_ok b hs p
      by_cases hd : ∀ r ∈ d, b.constraint r = true
      · have h0 : ¬ (d.map fun r => if b.constraint r then (0 : ℕ) else 1).sum ≠ 0 := by rw [not_not]; exact (count_zero _ _).2 hd
        have e : dcLl b s p d = ((b.ll p d).map fun l => l - log (newScale b s p).scale * d.length, newScale b s p) := by rw [dcLl, if_neg h0]
        simp only [run, e, List.map_cons, ih _ h2, h1]
        rw [if_pos hd]
        congr 2
        funext l
        ring
      · have h0 : (d.map fun r => if b.constraint r then (0 : ℕ) else 1).sum ≠ 0 := fun h => hd ((count_zero _ _).1 h)
        have e : dcLl b s p d = (none, s) := by rw [dcLl, if_pos h0]
        simp only [run, e, List.map_cons, ih _ hs]
        rw [if_neg hd]
  exact gen cs _ (Or.inl ⟨rfl, rfl⟩)

/-- **C80 (density).** If the scale is the integral of the base density over the constrained set, the constrained density (the exponential of the log likelihood of one row, zero outside) integrates to one. -/
theorem C80_density {X : Type} [MeasurableSpace X] (μ : MeasureTheory.Measure X) (b : Base X) (p : List ℝ) (f : X → ℝ) (hf : ∀ x, 0 < f x) (hll : ∀ x, b.ll p [x] = some (log (f x)))
    (C : Set X) (hC : MeasurableSet C) (hc : ∀ x, b.constraint x = true ↔ x ∈ C) (hs : b.scaling p = ∫ x in C, f x ∂μ) (hpos : 0 < b.scaling p) :
    ∫ x, (match (dcLl b ⟨none, 0⟩ p [x]).1 with | none => 0 | some l => exp l) ∂μ = 1 := by
  have e : ∀ x, (match (dcLl b ⟨none, 0⟩ p [x]).1 with | none => 0 | some l => exp l) = C.indicator (fun x => f x / b.scaling p) x := by
    intro x
    have h := C80_history b [(p, [x])]
    simp only [run, List.map_cons, List.map_nil, List.cons.injEq, and_true] at h
    rw [h]
    by_cases hx : x ∈ C
    · rw [if_pos (by simpa using (hc x).2 hx), Set.indicator_of_mem hx, hll]
      simp only [Option.map_some, List.length_singleton, Nat.cast_one, one_mul]
      rw [exp_sub, exp_log (hf x), exp_log hpos]
    · rw [if_neg (by simpa using fun h => hx ((hc x).1 h)), Set.indicator_of_notMem hx]
  simp only [e]
  rw [MeasureTheory.integral_indicator hC, MeasureTheory.integral_div, ← hs, div_self hpos.ne']

/-- **C80 (draws).** A draw is the first draw of the base model inside the constraint. -/
theorem C80_draw (c : R → Bool) (xs : List R) (x : R) : dcRng c xs = some x ↔ ∃ a b, xs = a ++ x :: b ∧ c x = true ∧ ∀ y ∈ a, c y = false := by
  induction xs with
  | nil => simp [dcRng]
  | cons y ys ih =>
    unfold dcRng
    by_cases hy : c y = true
    · rw [if_pos hy]
      constructor
      · rintro ⟨rfl⟩
        exact ⟨[], ys, rfl, hy, by simp⟩
      · rintro ⟨a, b, h1, h2, h3⟩
        cases a with
        | nil => simp at h1; rw [h1.1]
        | cons z a =>
          simp only [List.cons_append, List.cons.injEq] at h1
          have := h3 z (by simp)
          rw [← h1.1, hy] at this
          simp at this
    · rw [if_neg hy, ih]
      constructor
      · rintro ⟨a, b, rfl, h2, h3⟩
        refine ⟨y :: a, b, rfl, h2, ?_⟩
        intro z hz
        rcases List.mem_cons.1 hz with rfl | hz
        · simpa using hy
        · exact h3 z hz
      · rintro ⟨a, b, h1, h2, h3⟩
        cases a with
        | nil => simp only [List.nil_append, List.cons.injEq] at h1; rw [h1.1] at hy; exact absurd h2 hy
        | cons z a =>
          simp only [List.cons_append, List.cons.injEq] at h1
          exact ⟨a, b, h1.2, h2, fun w hw => h3 w (by simp [hw])⟩

/-- The chance that some outcome of `n` independent draws, each by `prob`, makes `event` true of the list of draws. -/
noncomputable def chance {X : Type} [Fintype X] (prob : X → ℝ) : ℕ → (List X → ℝ) → ℝ
  | 0, event => event []
  | n + 1, event => ∑ x, prob x * chance prob n fun xs => event (x :: xs)

theorem chance_const {X : Type} [Fintype X] (prob : X → ℝ) (h1 : ∑ x, prob x = 1) (n : ℕ) (k : ℝ) : chance prob n (fun _ => k) = k := by
  induction n with
  | zero => rfl
  | succ n ih => simp only [chance, ih]; rw [← Finset.sum_mul, h1, one_mul]

/-- **C80 (law of the draws).** With a base model of finitely many outcomes, `q` of whose mass is inside the constraint: the chance that the first `n` draws of the base model make `x` the constrained model's draw is x's mass times (1 - (1-q)^n)/q, and nothing for `x` outside; -/
theorem C80_law {X : Type} [Fintype X] [DecidableEq X] (prob : X → ℝ) (h1 : ∑ x, prob x = 1) (c : X → Bool) (q : ℝ) (hq : q = ∑ x, if c x then prob x else 0) (hq0 : q ≠ 0) (x : X) (n : ℕ) :
    chance prob n (fun xs => if dcRng c xs = some x then 1 else 0) = if c x then prob x / q * (1 - (1 - q) ^ n) else 0 := by
  induction n with
  | zero => simp [chance, dcRng]
  | succ n ih =>
    have hstep : ∀ y, chance prob n (fun xs => if dcRng c (y :: xs) = some x then (1 : ℝ) else 0) = if c y then (if y = x then 1 else 0) else (if c x then prob x / q * (1 - (1 - q) ^ n) else 0) := by
      intro y
      by_cases hy : c y = true
      · simp only [dcRng, hy, if_true, Option.some.injEq]
        exact chance_const prob h1 n _
      · simp only [dcRng, hy, if_false, Bool.false_eq_true]
        exact ih
    simp only [chance, hstep]
    have hsplit : ∀ K : ℝ, (∑ y, prob y * (if c y then (if y = x then 1 else 0) else K)) = (if c x then prob x else 0) + (1 - q) * K := by
      intro K
      have e : ∀ y, prob y * (if c y then (if y = x then 1 else 0) else K) = (if y = x then (if c y then prob y else 0) else 0) + (prob y - (if c y then prob y else 0)) * K := by
        intro y
        by_cases hy : c y = true
        · by_cases hyx : y = x
          · subst hyx; simp [hy]
          · simp [hy, hyx]
        · by_cases hyx : y = x
          · subst hyx; simp [hy]
          · simp [hy, hyx]
      rw [Finset.sum_congr rfl (fun y _ => e y), Finset.sum_add_distrib, ← Finset.sum_mul, Finset.sum_sub_distrib, h1, ← hq]
      simp
    rw [hsplit]
    by_cases hx : c x = true
    · simp only [hx, if_true]
      rw [pow_succ]
      field_simp
      ring
    · simp [hx]

/-- and, as `n` grows, it goes to the conditional probability of `x` given the constraint. -/
theorem C80_law_limit {X : Type} [Fintype X] [DecidableEq X] (prob : X → ℝ) (h0 : ∀ x, 0 ≤ prob x) (h1 : ∑ x, prob x = 1) (c : X → Bool) (q : ℝ) (hq : q = ∑ x, if c x then prob x else 0) (hq0 : 0 < q) (x : X) :
    Filter.Tendsto (fun n => chance prob n (fun xs => if dcRng c xs = some x then 1 else 0)) Filter.atTop (nhds (if c x then prob x / q else 0)) := by
  have hq1 : q ≤ 1 := by
    rw [hq, ← h1]
    apply Finset.sum_le_sum
    intro y _
    split
    · exact le_refl _
    · exact h0 y
  simp only [C80_law prob h1 c q hq hq0.ne' x]
  by_cases hx : c x = true
  · simp only [hx, if_true]
    have : Filter.Tendsto (fun n : ℕ => (1 - q) ^ n) Filter.atTop (nhds 0) := tendsto_pow_atTop_nhds_zero_of_lt_one (by linarith) (by linarith)
    have := (this.const_sub 1).const_mul (prob x / q)
    simpa using this
  · simp only [hx]
    exact tendsto_const_nhds

theorem chance_add {X : Type} [Fintype X] (prob : X → ℝ) (n : ℕ) (f g : List X → ℝ) : chance prob n (fun xs => f xs + g xs) = chance prob n f + chance prob n g := by
  induction n generalizing f g with
  | zero => rfl
  | succ n ih => simp only [chance, ih, mul_add, Finset.sum_add_distrib]

theorem chance_congr {X : Type} [Fintype X] (prob : X → ℝ) (n : ℕ) (f g : List X → ℝ) (h : ∀ xs, xs.length = n → f xs = g xs) : chance prob n f = chance prob n g := by
  induction n generalizing f g with
  | zero => exact h [] rfl
  | succ n ih =>
    simp only [chance]
    apply Finset.sum_congr rfl
    intro x _
    rw [ih _ _ fun xs hxs => h (x :: xs) (by simp [hxs])]

theorem chance_mul {X : Type} [Fintype X] (prob : X → ℝ) (n : ℕ) (k : ℝ) (f : List X → ℝ) : chance prob n (fun xs => f xs * k) = chance prob n f * k := by
  induction n generalizing f with
  | zero => rfl
  | succ n ih => simp only [chance, ih, ← mul_assoc, Finset.sum_mul]

/-- **C80 (scale by draws).** The estimate of the scale made from draws is right on average: its expectation is the mass inside. -/
theorem C80_scaling {X : Type} [Fintype X] (prob : X → ℝ) (h1 : ∑ x, prob x = 1) (c : X → Bool) (n : ℕ) (hn : n ≠ 0) : chance prob n (getScaling c) = ∑ x, if c x then prob x else 0 := by
  have key : ∀ n : ℕ, chance prob n (fun xs => (((xs.map fun r => if c r then (1 : ℕ) else 0).sum : ℕ) : ℝ)) = n * ∑ x, if c x then prob x else 0 := by
    intro n
    induction n with
    | zero => simp [chance]
    | succ n ih =>
      have e : ∀ y, chance prob n (fun xs => ((((y :: xs).map fun r => if c r then (1 : ℕ) else 0).sum : ℕ) : ℝ)) = (if c y then 1 else 0) + n * ∑ x, if c x then prob x else 0 := by
        intro y
        have : (fun xs : List X => ((((y :: xs).map fun r => if c r then (1 : ℕ) else 0).sum : ℕ) : ℝ)) = fun xs => (if c y then (1 : ℝ) else 0) + (((xs.map fun r => if c r then (1 : ℕ) else 0).sum : ℕ) : ℝ) := by
          funext xs
          simp only [List.map_cons, List.sum_cons]
          push_cast
          rfl
        rw [this, chance_add, chance_const prob h1, ih]
      simp only [chance, e, mul_add, Finset.sum_add_distrib]
      rw [← Finset.sum_mul, h1]
      push_cast
      have : ∑ x, prob x * (if c x then (1 : ℝ) else 0) = ∑ x, if c x then prob x else 0 := Finset.sum_congr rfl fun x _ => by split <;> simp
      rw [this]
      ring
  have hn' : (n : ℝ) ≠ 0 := by exact_mod_cast hn
  have : chance prob n (getScaling c) = chance prob n (fun xs => (((xs.map fun r => if c r then (1 : ℕ) else 0).sum : ℕ) : ℝ) * (1 / (n : ℝ))) := by
    apply chance_congr
    intro xs hxs
    rw [getScaling, hxs]
    ring
  rw [this, chance_mul, key]
  field_simp

/-! ### Copies -/

/-- Two copies of a settings group: `Apop_settings_copy(apop_dconstrain, in->refct++)` (transform/apop_dconstrain.c:61) copies the pointer to `last_params`, which both then use, but each has its own `scale`. Here the second copy is evaluated after the first has been evaluated with other parameters. -/
noncomputable def copyRun (b : Base R) (p1 p2 : List ℝ) (rows : List R) : Option ℝ :=
  let a := (dcLl b ⟨none, 0⟩ p1 rows).2      -- the original, evaluated at p1
  let a' := (dcLl b a p2 rows).2             -- evaluated at p2, after the copy was taken
  (dcLl b ⟨a'.last, a.scale⟩ p2 rows).1      -- the copy at p2: shared last_params, its own scale

/-- A copy can be left with a scale that is out of date. -/
theorem C80_copy_refuted : let b : Base ℕ := ⟨fun _ _ => some 0, fun p => p.sum, fun _ => true⟩
    copyRun b [1] [2] [0] = some 0 ∧ run b ⟨none, 0⟩ [([2], [0])] = [some (-log 2)] := by
  intro b
  have hs : ∀ l : List ℝ, distanceOf l l 'e' 2 = some 0 := fun l => (distance_zero rfl).2 rfl
  have hd : distanceOf [(1 : ℝ)] [2] 'e' 2 ≠ some 0 := by
    intro h
    have := (distance_zero (by simp)).1 h
    norm_num at this
  constructor
  · simp [copyRun, dcLl, newScale, isStale, b, hs, hd]
  · rw [C80_history]
    simp [b]

/-! A case that meets the hypotheses: draws of a die, kept when even. -/

example : (∑ x : Fin 6, (1 / 6 : ℝ)) = 1 ∧ (∑ x : Fin 6, if decide (x.1 % 2 = 0) then (1 / 6 : ℝ) else 0) = 1 / 2 := by
  constructor
  · simp
  · simp [Fin.sum_univ_succ]; norm_num

end Apop.Dcons
