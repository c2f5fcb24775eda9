import Verif.Dist.CovPages
import Mathlib.Probability.Distributions.Exponential

/-!
# C214: the CDFs and draws of the exponential, the uniform and the binomial

Exact arithmetic over the reals. GSL's functions are given by what its documentation says they compute: `gsl_cdf_exponential_P(x, mu)`, `gsl_ran_exponential` (`-mu log1p(-u)`), `gsl_cdf_binomial_P(k, p, n)`, `gsl_rng_uniform`. -/

namespace Apop.Dist
open Real Stats MeasureTheory ProbabilityTheory

/-! ## The models -/

/-- `apop_data_get(d, 0, vsize ? -1 : 0)`, model/apop_exponential.c:62, model/apop_uniform.c:60, model/apop_gamma.c:79, model/apop_normal.c:102, and `.col=firstcol` in model/apop_bernoulli.c:60, model/apop_multinomial.c:38: the first element of the vector, else of the matrix; NaN (`none`) if there is neither (apop_data.m4.c:836-842). -/
def firstElt (d : D) : Option ℝ :=
  match d.vec with
  | some (x :: _) => some x
  | _ => match d.mat with
    | some m => (m.rows.head?).bind List.head?
    | none => none

/-- `apop_data_get(d)`, model/apop_beta.c:86: the matrix, if there is one, else the vector (apop_data.m4.c:836). -/
def betaElt (d : D) : Option ℝ :=
  match d.mat with
  | some m => (m.rows.head?).bind List.head?
  | none => match d.vec with
    | some (x :: _) => some x
    | _ => none

/-- `expo_cdf`, model/apop_exponential.c:59-65. -/
noncomputable def expoCdf (mu : ℝ) (d : D) : Option ℝ := (firstElt d).map fun x => if x < 0 then 0 else 1 - exp (-(x / mu))

/-- `exponential_rng`, model/apop_exponential.c:68-71, with `u` from `gsl_rng_uniform`. -/
noncomputable def expoDraw (mu u : ℝ) : ℝ := -mu * log (1 - u)

/-- `unif_cdf`, model/apop_uniform.c:55-65. -/
noncomputable def unifCdf (a b : ℝ) (d : D) : Option ℝ := (firstElt d).map fun x => if x ≤ a then 0 else if b ≤ x then 1 else (x - a) / (b - a)

/-- `uniform_rng`, model/apop_uniform.c:67-70. -/
def unifDraw (a b u : ℝ) : ℝ := u * (b - a) + a

/-- `gsl_cdf_binomial_P(k, p, n)`. -/
noncomputable def gslBinomialP (k : ℕ) (p : ℝ) (n : ℕ) : ℝ := if n ≤ k then 1 else ∑ i ∈ Finset.range (k + 1), (n.choose i : ℝ) * p ^ i * (1 - p) ^ (n - i)

/-- `binomial_cdf`, model/apop_multinomial.c:35-42, for a whole number `n` of trials: the element is converted to an unsigned number, cut towards zero; at -1 or below, or 2^32 and above, that conversion is undefined. -/
noncomputable def binomialCdf (n : ℕ) (p : ℝ) (d : D) : Option (Res ℝ) :=
  (firstElt d).map fun x => if x ≤ -1 ∨ 2 ^ 32 ≤ x then .ub else .ok (gslBinomialP ⌊x⌋₊ p n)

/-! ## Specification -/

/-- The number the CDF is asked for: the first of the vector's and matrix's elements (C74's `cells`). -/
def Point (d : D) (x : ℝ) : Prop := d.cells.head? = some x

/-- The probability of exactly `i` hits in `n` trials. -/
noncomputable def hits (n : ℕ) (p : ℝ) (i : ℕ) : ℝ := (n.choose i : ℝ) * p ^ i * (1 - p) ^ (n - i)

/-- The probability of at most `x` hits. -/
noncomputable def atMost (n : ℕ) (p x : ℝ) : ℝ := by
  classical exact ∑ i ∈ (Finset.range (n + 1)).filter (fun i : ℕ => (i : ℝ) ≤ x), hits n p i

/-! ## Proofs -/

/-- The element is the first of the data set, whether in the vector or the matrix. -/
theorem point_firstElt (d : D) (hr : ∀ m, d.mat = some m → ∀ r ∈ m.rows, r ≠ []) (x : ℝ) (h : Point d x) : firstElt d = some x := by
  obtain ⟨v, m⟩ := d
  have hm : ∀ m' : Mat ℝ, m = some m' → m'.rows.flatten.head? = some x → (m'.rows.head?).bind List.head? = some x := by
    intro m' e h
    have hr' := hr m' e
    cases hrow : m'.rows with
    | nil => rw [hrow] at h; simp at h
    | cons r rs =>
      cases r with
      | nil => exact absurd rfl (hr' [] (by rw [hrow]; simp))
      | cons y ys =>
        rw [hrow] at h
        simpa using h
  cases v with
  | none =>
    cases m with
    | none => simp [Point, D.cells] at h
    | some m => exact hm m rfl (by simpa [Point, D.cells] using h)
  | some v =>
    cases v with
    | nil =>
      cases m with
      | none => simp [Point, D.cells] at h
      | some m => exact hm m rfl (by simpa [Point, D.cells] using h)
    | cons y ys =>
      have : y = x := by simpa [Point, D.cells] using h
      simp [firstElt, this]

theorem unif_apply (s : Set ℝ) : unif s = volume (s ∩ Set.Ico 0 1) := by
  rw [unif, Measure.restrict_apply' measurableSet_Ico]

theorem expo_set (mu x : ℝ) (hmu : 0 < mu) : {u | expoDraw mu u ≤ x} ∩ Set.Ico 0 1 = if x < 0 then ∅ else Set.Icc 0 (1 - exp (-(x / mu))) := by
  ext u
  have hlog : u < 1 → (expoDraw mu u ≤ x ↔ u ≤ 1 - exp (-(x / mu))) := by
    intro h1
    have h : 0 < 1 - u := by linarith
    have e : expoDraw mu u ≤ x ↔ -(x / mu) ≤ log (1 - u) := by
      unfold expoDraw
      rw [neg_le, le_div_iff₀ hmu]
      constructor <;> intro hh <;> linarith
    rw [e, Real.le_log_iff_exp_le h]
    constructor <;> intro hh <;> linarith
  by_cases hx : x < 0
  · rw [if_pos hx]
    simp only [Set.mem_inter_iff, Set.mem_ofPred_eq, Set.mem_Ico, Set.mem_empty_iff_false, iff_false]
    rintro ⟨a, b, c⟩
    rw [hlog c] at a
    have : 1 < exp (-(x / mu)) := Real.one_lt_exp_iff.2 (by rw [neg_pos]; exact div_neg_of_neg_of_pos hx hmu)
    linarith
  · rw [if_neg hx]
    simp only [Set.mem_inter_iff, Set.mem_ofPred_eq, Set.mem_Ico, Set.mem_Icc]
    have hp := Real.exp_pos (-(x / mu))
    constructor
    · rintro ⟨a, b, c⟩
      exact ⟨b, (hlog c).1 a⟩
    · rintro ⟨a, b⟩
      have c : u < 1 := by linarith
      exact ⟨(hlog c).2 b, a, c⟩

/-- **C214, exponential**: the CDF at the point is the probability that a draw is at most that, and the mass up to the point of the distribution whose density the log likelihood uses (C74: rate 1/mu); between zero and one. -/
theorem C214_exponential (mu : ℝ) (hmu : 0 < mu) (d : D) (hr : ∀ m, d.mat = some m → ∀ r ∈ m.rows, r ≠ []) (x : ℝ) (h : Point d x) :
    ∃ c, expoCdf mu d = some c ∧ 0 ≤ c ∧ c < 1 ∧ unif {u | expoDraw mu u ≤ x} = ENNReal.ofReal c ∧ c = cdf (expMeasure (1 / mu)) x ∧
      c = ∫ t in Set.Iic x, exponentialPDFReal (1 / mu) t := by
  have hp : (0 : ℝ) < 1 / mu := by positivity
  have hi := cdf_expMeasure_eq_integral hp x
  rw [expoCdf, point_firstElt d hr x h]
  refine ⟨if x < 0 then 0 else 1 - exp (-(x / mu)), rfl, ?_, ?_, ?_, ?_, ?_⟩
  · split
    · exact le_rfl
    · rename_i hx
      have : 0 ≤ x / mu := div_nonneg (by linarith) hmu.le
      have := Real.exp_le_one_iff.2 (neg_nonpos.2 this)
      linarith
  · split
    · exact one_pos
    · have := Real.exp_pos (-(x / mu))
      linarith
  · rw [unif_apply, expo_set mu x hmu]
    by_cases hx : x < 0
    · rw [if_pos hx, if_pos hx]
      simp
    · rw [if_neg hx, if_neg hx]
      simp
  · rw [cdf_expMeasure_eq hp]
    by_cases hx : x < 0
    · rw [if_pos hx, if_neg (by linarith)]
    · rw [if_neg hx, if_pos (by linarith)]
      ring_nf
  · rw [← hi, cdf_expMeasure_eq hp]
    by_cases hx : x < 0
    · rw [if_pos hx, if_neg (by linarith)]
    · rw [if_neg hx, if_pos (by linarith)]
      ring_nf

theorem unif_set (a b x : ℝ) (hab : a < b) : {u | unifDraw a b u ≤ x} ∩ Set.Ico 0 1 = if x < a then ∅ else if b ≤ x then Set.Ico 0 1 else Set.Icc 0 ((x - a) / (b - a)) := by
  have hb : 0 < b - a := by linarith
  ext u
  by_cases hx : x < a
  · rw [if_pos hx]
    simp only [Set.mem_inter_iff, Set.mem_ofPred_eq, Set.mem_Ico, Set.mem_empty_iff_false, iff_false, unifDraw]
    rintro ⟨h, h0, h1⟩
    have := mul_nonneg h0 hb.le
    linarith
  · rw [if_neg hx]
    by_cases hx' : b ≤ x
    · rw [if_pos hx']
      simp only [Set.mem_inter_iff, Set.mem_ofPred_eq, Set.mem_Ico, unifDraw, and_iff_right_iff_imp]
      rintro ⟨h0, h1⟩
      nlinarith
    · rw [if_neg hx']
      simp only [Set.mem_inter_iff, Set.mem_ofPred_eq, Set.mem_Ico, Set.mem_Icc, unifDraw, le_div_iff₀ hb]
      constructor
      · rintro ⟨h, h0, h1⟩
        exact ⟨h0, by linarith⟩
      · rintro ⟨h0, h⟩
        refine ⟨by linarith, h0, ?_⟩
        by_contra hc
        nlinarith

/-- **C214, uniform**: every draw is in [min, max), and the CDF at the point is the probability that a draw is at most that; between zero and one. -/
theorem C214_uniform (a b : ℝ) (hab : a < b) :
    (∀ u, 0 ≤ u → u < 1 → a ≤ unifDraw a b u ∧ unifDraw a b u < b) ∧
    ∀ (d : D) (_ : ∀ m, d.mat = some m → ∀ r ∈ m.rows, r ≠ []) (x : ℝ) (_ : Point d x),
      ∃ c, unifCdf a b d = some c ∧ 0 ≤ c ∧ c ≤ 1 ∧ unif {u | unifDraw a b u ≤ x} = ENNReal.ofReal c := by
  have hb : 0 < b - a := by linarith
  refine ⟨fun u h0 h1 => ⟨?_, ?_⟩, fun d hr x h => ?_⟩
  · unfold unifDraw
    have := mul_nonneg h0 hb.le
    linarith
  · unfold unifDraw
    nlinarith
  · rw [unifCdf, point_firstElt d hr x h]
    refine ⟨if x ≤ a then 0 else if b ≤ x then 1 else (x - a) / (b - a), rfl, ?_, ?_, ?_⟩
    · split
      · exact le_rfl
      · rename_i hx
        split
        · exact zero_le_one
        · exact div_nonneg (by linarith) hb.le
    · split
      · exact zero_le_one
      · split
        · exact le_rfl
        · rw [div_le_one hb]
          linarith
    · rw [unif_apply, unif_set a b x hab]
      by_cases h1 : x < a
      · rw [if_pos h1, if_pos h1.le]
        simp
      · rw [if_neg h1]
        by_cases h2 : b ≤ x
        · rw [if_pos h2, if_neg (by linarith), if_pos h2]
          simp
        · rw [if_neg h2]
          by_cases h3 : x ≤ a
          · have : x = a := by linarith
            subst this
            simp
          · rw [if_neg h3, if_neg h2]
            simp

/-- **C214, binomial**: at a point that is not negative (and below 2^32) the CDF is the probability of at most that many hits. -/
theorem C214_binomial (n : ℕ) (p : ℝ) (d : D) (hr : ∀ m, d.mat = some m → ∀ r ∈ m.rows, r ≠ []) (x : ℝ) (h : Point d x) (h0 : 0 ≤ x) (h32 : x < 2 ^ 32) :
    binomialCdf n p d = some (.ok (atMost n p x)) := by
  rw [binomialCdf, point_firstElt d hr x h, Option.map_some, if_neg (by push Not; exact ⟨by linarith, h32⟩)]
  congr 2
  unfold gslBinomialP atMost
  have hall : ∑ i ∈ Finset.range (n + 1), hits n p i = 1 := by
    have := (add_pow p (1 - p) n).symm
    simp only [add_sub_cancel, one_pow] at this
    rw [← this]
    refine Finset.sum_congr rfl fun i _ => ?_
    unfold hits
    ring
  by_cases hn : n ≤ ⌊x⌋₊
  · rw [if_pos hn, ← hall]
    refine Finset.sum_congr ?_ fun _ _ => rfl
    ext i
    simp only [Finset.mem_range, Finset.mem_filter]
    constructor
    · intro hi
      exact ⟨hi, (Nat.le_floor_iff h0).1 (by omega)⟩
    · exact fun hi => hi.1
  · rw [if_neg hn]
    refine Finset.sum_congr ?_ fun _ _ => rfl
    ext i
    simp only [Finset.mem_range, Finset.mem_filter]
    constructor
    · intro hi
      exact ⟨by omega, (Nat.le_floor_iff h0).1 (by omega)⟩
    · rintro ⟨-, hi⟩
      have := (Nat.le_floor_iff h0).2 hi
      omega

/-- Just below zero the binomial's CDF is that of zero hits, where the probability is zero; from -1 down the conversion of the point to an unsigned number is undefined. -/
theorem C214_binomial_negative_refuted (n : ℕ) (hn : 0 < n) (p : ℝ) (x : ℝ) (d : D) (hr : ∀ m, d.mat = some m → ∀ r ∈ m.rows, r ≠ []) (h : Point d x) (h0 : x < 0) :
    atMost n p x = 0 ∧ binomialCdf n p d = some (if x ≤ -1 then .ub else .ok ((1 - p) ^ n)) := by
  constructor
  · unfold atMost
    refine Finset.sum_eq_zero fun i hi => ?_
    simp only [Finset.mem_filter] at hi
    have : (0 : ℝ) ≤ i := Nat.cast_nonneg i
    linarith [hi.2]
  · rw [binomialCdf, point_firstElt d hr x h, Option.map_some]
    have hz : ⌊x⌋₊ = 0 := Nat.floor_of_nonpos h0.le
    have h2 : ¬(2 : ℝ) ^ 32 ≤ x := by
      have : (0 : ℝ) < 2 ^ 32 := by positivity
      linarith
    by_cases h1 : x ≤ -1
    · rw [if_pos (Or.inl h1), if_pos h1]
    · rw [if_neg (by tauto), if_neg h1, hz, gslBinomialP, if_neg (by omega)]
      simp

/-- With both a vector and a matrix the beta's CDF is taken at the matrix's first element, the others' at the vector's. -/
theorem C214_beta_point_refuted : firstElt ⟨some [1 / 4], some ⟨[[3 / 4]], 1⟩⟩ = some (1 / 4) ∧ betaElt ⟨some [1 / 4], some ⟨[[3 / 4]], 1⟩⟩ = some (3 / 4) := ⟨rfl, rfl⟩

/-- Cases that meet the hypotheses. -/
example : Point ⟨some [3, 5], none⟩ 3 ∧ Point ⟨none, some ⟨[[1, 2]], 2⟩⟩ 1 ∧ Point ⟨some [2], some ⟨[[7]], 1⟩⟩ 2 := ⟨rfl, rfl, rfl⟩

end Apop.Dist
