import Verif.Stats.Moments

/-! # C52: variances and covariances; C53: higher moments -/

namespace Apop.Stats
variable {K : Type} [Field K]

/-! ## Algebra of sums -/

/-- Σ (x - m)² = Σx² - 2mΣx + nm². -/
theorem sum_sq_dev (l : List K) (m : K) : (l.map (fun x => (x - m) ^ 2)).sum = (l.map (fun x => x ^ 2)).sum - 2 * m * l.sum + l.length * m ^ 2 := by
  induction l with
  | nil => simp
  | cons x l ih => simp only [List.map_cons, List.sum_cons, ih, List.length_cons]; push_cast; ring

theorem sum_cross_dev (a b : List K) (h : a.length = b.length) (m n : K) :
    (List.zipWith (fun x y => (x - m) * (y - n)) a b).sum = (List.zipWith (fun x y => x * y) a b).sum - n * a.sum - m * b.sum + a.length * m * n := by
  induction a generalizing b with
  | nil =>
    cases b with
    | nil => simp
    | cons => simp at h
  | cons x a ih =>
    cases b with
    | nil => simp at h
    | cons y b =>
      simp only [List.zipWith_cons_cons, List.sum_cons, ih b (by simpa using h), List.length_cons]
      push_cast
      ring

theorem covLoop_eq : ∀ (a b w : List K), a.length = b.length → a.length = w.length → ∀ s : K × K × K × K,
    covLoop a b w s = (s.1 + (List.zipWith (fun c x => c * x) w a).sum, s.2.1 + (List.zipWith (fun c y => c * y) w b).sum,
      s.2.2.1 + (List.zipWith (fun c xy => c * xy) w (List.zipWith (fun x y => x * y) a b)).sum, s.2.2.2 + w.sum)
  | [], [], [], _, _, s => by simp [covLoop]
  | x :: a, y :: b, c :: w, h, h', (s, t, u, z) => by
    rw [covLoop, covLoop_eq a b w (by simpa using h) (by simpa using h')]
    simp only [List.zipWith_cons_cons, List.sum_cons, Prod.mk.injEq]
    refine ⟨?_, ?_, ?_, ?_⟩ <;> ring
  | [], _ :: _, _, h, _, _ => by simp at h
  | _ :: _, [], _, h, _, _ => by simp at h
  | [], [], _ :: _, _, h, _ => by simp at h
  | _ :: _, _ :: _, [], _, h, _ => by simp at h

theorem zipWith_replicates (g : K → K → K) : ∀ (w : List ℕ) (a b : List K), a.length = b.length → a.length = w.length →
    (List.zipWith g (replicates w a) (replicates w b)).sum = (List.zipWith (fun c xy => c * xy) (ofCounts w) (List.zipWith g a b)).sum
  | [], [], [], _, _ => by simp [replicates, ofCounts]
  | n :: w, x :: a, y :: b, h, h' => by
    have ih := zipWith_replicates g w a b (by simpa using h) (by simpa using h')
    simp only [replicates, ofCounts, List.map_cons, List.zipWith_cons_cons, List.sum_cons]
    rw [List.zipWith_append (by simp), List.sum_append, ih]
    simp [ofCounts]
  | [], _ :: _, _, _, h => by simp at h
  | _ :: _, [], _, _, h => by simp at h
  | [], [], _ :: _, h, _ => by simp at h
  | _ :: _, _ :: _, [], h, _ => by simp at h

variable [LinearOrder K] [IsStrictOrderedRing K]

theorem nat_ge_two {n : ℕ} (h : 2 ≤ n) : ¬ ((n : K) < 11 / 10) ∧ (n : K) ≠ 0 ∧ (n : K) - 1 ≠ 0 := by
  have : (2 : K) ≤ n := by exact_mod_cast h
  refine ⟨?_, ?_, ?_⟩
  · intro hlt; linarith
  · intro h0; linarith
  · intro h0; linarith

theorem ofCounts_sum (w : List ℕ) : (ofCounts w : List K).sum = ((w.sum : ℕ) : K) := by
  induction w with
  | nil => simp [ofCounts]
  | cons n w ih => simp only [ofCounts, List.map_cons, List.sum_cons] at ih ⊢; rw [ih]; push_cast; ring

theorem replicates_len (w : List ℕ) (v : List K) (h : v.length = w.length) : (replicates w v).length = w.sum := by
  have := replicates_length w v h
  rw [ofCounts_sum] at this
  exact_mod_cast this

/-! ## C52: variance and covariance -/

/-- The sample variance: Σ(x - mean)²/(n - 1). -/
theorem C52_var (v : List K) (h : 2 ≤ v.length) :
    vectorVar (some v) none = some ((v.map (fun x => (x - v.sum / v.length) ^ 2)).sum / ((v.length : K) - 1)) := by
  have hv : v ≠ [] := by intro e; simp [e] at h
  simp [vectorVar, checkVW, hv, gslVarM, gslMean, cdiv, (nat_ge_two (K := K) h).2.2]

/-- One observation has no sample variance. -/
theorem C52_var_one (x : K) : vectorVar (some [x]) none = none := by
  simp [vectorVar, checkVW, gslVarM, cdiv]

/-- **C52 (replicates).** With whole weights (at least two in all), the weighted variance is the sample variance of the data with each element repeated as often as its weight says. -/
theorem C52_var_replicates (v : List K) (w : List ℕ) (hw : v.length = w.length) (h2 : 2 ≤ w.sum) :
    vectorVar (some v) (some (ofCounts w)) = vectorVar (some (replicates w v)) none := by
  have hv : v ≠ [] := by
    intro e
    have : w = [] := List.length_eq_zero_iff.1 (by rw [← hw, e]; rfl)
    simp [this] at h2
  have hl := replicates_len w v hw
  rw [C52_var _ (by rw [hl]; exact h2)]
  obtain ⟨n1, n2, n3⟩ := nat_ge_two (K := K) h2
  have hs1 := replicates_sum (fun x => x) w v hw
  have hs2 := replicates_sum (fun x => x ^ 2) w v hw
  simp only [List.map_id'] at hs1
  simp only [vectorVar, checkVW, hv, if_false, ne_eq, Option.bind_eq_bind]
  rw [if_neg (by simp [ofCounts, hw])]
  simp only [Option.bind_some, varLoop_eq v (ofCounts w) (by simp [ofCounts, hw]) (0, 0, 0), zero_add, ← hs1, ← hs2, weightLen, ofCounts_sum, if_neg n1]
  simp only [varFrom, cdiv, if_neg n2, if_neg n3, Option.bind_eq_bind, Option.bind_some, Option.some.injEq]
  rw [sum_sq_dev, hl]
  field_simp
  ring

/-- **C52 (covariance, replicates).** -/
theorem C52_cov (a b : List K) (hab : a.length = b.length) (h : 2 ≤ a.length) :
    vectorCov (some a) (some b) none = some ((List.zipWith (fun x y => (x - a.sum / a.length) * (y - b.sum / b.length)) a b).sum / (a.length - 1)) := by
  have ha : a ≠ [] := by intro e; simp [e] at h
  have hb : b ≠ [] := by intro e; simp [e] at hab; exact ha hab
  simp [vectorCov, ha, hb, hab, gslCov, gslMean, cdiv, (nat_ge_two (K := K) (hab ▸ h)).2.2]

theorem C52_cov_replicates (a b : List K) (w : List ℕ) (hab : a.length = b.length) (hw : a.length = w.length) (h2 : 2 ≤ w.sum) :
    vectorCov (some a) (some b) (some (ofCounts w)) = vectorCov (some (replicates w a)) (some (replicates w b)) none := by
  have ha : a ≠ [] := by
    intro e
    have : w = [] := List.length_eq_zero_iff.1 (by rw [← hw, e]; rfl)
    simp [this] at h2
  have hb : b ≠ [] := by intro e; rw [e] at hab; exact ha (List.length_eq_zero_iff.1 hab)
  have hla := replicates_len w a hw
  have hlb := replicates_len w b (by omega)
  rw [C52_cov _ _ (by omega) (by omega)]
  obtain ⟨n1, n2, n3⟩ := nat_ge_two (K := K) h2
  have hs1 := replicates_sum (fun x => x) w a hw
  have hs2 := replicates_sum (fun x => x) w b (by omega)
  have hs3 := zipWith_replicates (fun x y => x * y) w a b hab hw
  simp only [List.map_id'] at hs1 hs2
  have hc := covLoop_eq a b (ofCounts w) hab (by simp [ofCounts, hw]) (0, 0, 0, 0)
  simp only [zero_add, ← hs1, ← hs2, ← hs3, ofCounts_sum] at hc
  simp only [vectorCov, ha, hb, hab, false_or, ne_eq, not_true_eq_false, if_false]
  rw [if_neg (by simp [ofCounts, ← hw, hab]), hc]
  simp only [weightLen, if_neg n1, covFrom, cdiv, if_neg n2, if_neg n3, if_neg (pow_ne_zero 2 n2), Option.bind_eq_bind, Option.bind_some, Option.some.injEq]
  rw [sum_cross_dev _ _ (by omega), hla, hlb]
  field_simp
  ring

/-- Covariance does not depend on the order, and that of a vector with itself is its variance; weighted or not. -/
theorem C52_cov_comm (a b : List K) (w : Option (List K)) : vectorCov (some a) (some b) w = vectorCov (some b) (some a) w := by
  by_cases h : a = [] ∨ b = [] ∨ a.length ≠ b.length
  · have h' : b = [] ∨ a = [] ∨ b.length ≠ a.length := by
      rcases h with h | h | h
      · exact Or.inr (Or.inl h)
      · exact Or.inl h
      · exact Or.inr (Or.inr (Ne.symm h))
    simp only [vectorCov, if_pos h, if_pos h']
  · have h' : ¬(b = [] ∨ a = [] ∨ b.length ≠ a.length) := by
      rintro (h' | h' | h')
      · exact h (Or.inr (Or.inl h'))
      · exact h (Or.inl h')
      · exact h (Or.inr (Or.inr (Ne.symm h')))
    have hab : a.length = b.length := by
      by_contra e; exact h (Or.inr (Or.inr e))
    have ha : a ≠ [] := fun e => h (Or.inl e)
    have hb : b ≠ [] := fun e => h (Or.inr (Or.inl e))
    simp only [vectorCov, ha, hb, hab, ne_eq, not_true_eq_false, or_self, if_false]
    cases w with
    | none =>
      simp only [gslCov, hab]
      congr 2
      rw [List.zipWith_comm]
      simp only [mul_comm]
    | some w =>
      by_cases hw : w.length = b.length
      · simp only [hw, not_true_eq_false, if_false]
        rw [covLoop_eq a b w hab (by omega), covLoop_eq b a w hab.symm (by omega)]
        rw [List.zipWith_comm (f := fun x y : K => x * y) (as := a)]
        simp only [covFrom, mul_comm]
      · simp [hw]

theorem C52_cov_self (v : List K) (w : Option (List K)) : vectorCov (some v) (some v) w = vectorVar (some v) w := by
  by_cases hv : v = []
  · simp [vectorCov, vectorVar, checkVW, hv]
  · cases w with
    | none => simp [vectorCov, vectorVar, checkVW, hv, gslCov, gslVarM, pow_two]
    | some w =>
      by_cases hw : w.length = v.length
      · simp only [vectorCov, vectorVar, checkVW, hv, hw, ne_eq, not_true_eq_false, if_false, or_self, Option.bind_eq_bind, Option.bind_some]
        rw [covLoop_eq v v w rfl hw.symm, varLoop_eq v w hw.symm]
        have : (List.zipWith (fun c xy => c * xy) w (List.zipWith (fun x y => x * y) v v)).sum = (List.zipWith (fun a x => a * x ^ 2) w v).sum := by
          congr 1
          clear hw hv
          induction w generalizing v with
          | nil => simp
          | cons c w ih => cases v with
            | nil => simp
            | cons x v => simp only [List.zipWith_cons_cons, ih v, pow_two]
        simp only [this, covFrom, varFrom, cdiv, zero_add]
        by_cases hl : weightLen w.sum v.length = 0
        · simp [hl]
        · simp only [hl, if_false, Option.bind_some, pow_eq_zero_iff, ne_eq, OfNat.ofNat_ne_zero, not_false_eq_true]
          split
          · rfl
          · simp only [Option.bind_eq_bind, Option.bind_some, Option.some.injEq]
            rw [div_pow, pow_two]
            ring
      · simp [vectorCov, vectorVar, checkVW, hv, hw]

/-- **Weights that sum to one.** What the code computes, for `n` observations: the moments are divided by `n` although the weights are already fractions. -/
theorem C56_var (v w : List K) (hw : v.length = w.length) (h2 : 2 ≤ v.length) (h1 : w.sum = 1) :
    vectorVar (some v) (some w) = some (((List.zipWith (fun a x => a * x ^ 2) w v).sum / v.length - ((List.zipWith (fun a x => a * x) w v).sum / v.length) ^ 2) *
      (v.length / (v.length - 1))) := by
  have hv : v ≠ [] := by intro e; simp [e] at h2
  obtain ⟨n1, n2, n3⟩ := nat_ge_two (K := K) h2
  simp only [vectorVar, checkVW, hv, if_false, ne_eq, ← hw, not_true_eq_false, Option.bind_eq_bind, Option.bind_some, varLoop_eq v w hw (0, 0, 0), zero_add, h1]
  rw [weightLen, if_pos (by norm_num)]
  simp only [varFrom, cdiv, if_neg n2, if_neg n3, Option.bind_eq_bind, Option.bind_some]

/-- **C52 fails for weights that sum to one**: equal weights 1/2 on the data 1, 3 give 3; the sample variance is 2. -/
theorem C56_wrong : vectorVar (some [1, 3]) (some [1 / 2, 1 / 2]) = some (3 : ℚ) ∧ vectorVar (some [1, 3]) none = some (2 : ℚ) := by
  constructor
  · rw [C56_var _ _ (by simp) (by simp) (by norm_num)]; norm_num
  · rw [C52_var _ (by simp)]; norm_num

/-- Nor does the result stay the same when a constant is added to the data. -/
theorem C56_shift : vectorVar (some [0, 0]) (some [1 / 2, 1 / 2]) = some (0 : ℚ) ∧ vectorVar (some [1, 1]) (some [1 / 2, 1 / 2]) = some (1 / 2 : ℚ) := by
  constructor <;> (rw [C56_var _ _ (by simp) (by simp) (by norm_num)]; norm_num)

/-- With weights that are counts: data 1, 2, 6 with weights 1, 2, 1 and the same written out. -/
example : vectorVar (some [1, 2, 6]) (some (ofCounts [1, 2, 1])) = vectorVar (some ([1, 2, 2, 6] : List ℚ)) none := C52_var_replicates _ _ rfl (by simp)

/-! ## C53: third and fourth moments -/

omit [LinearOrder K] [IsStrictOrderedRing K] in
theorem runAvg_eq [CharZero K] (l : List K) : ∀ (n : ℕ) (avg : K), runAvg n avg l * ((n + l.length : ℕ) : K) = avg * n + l.sum := by
  induction l with
  | nil => intro n avg; simp [runAvg]
  | cons x l ih =>
    intro n avg
    rw [runAvg, List.length_cons, show n + (l.length + 1) = n + 1 + l.length by ring, ih, List.sum_cons]
    have : ((n : K) + 1) ≠ 0 := Nat.cast_add_one_ne_zero n
    push_cast
    field_simp
    ring

/-- **C53.** The running averages give the population moments Σ(x - mean)^k / n. -/
theorem C53_pop (k : ℕ) (v : List K) (hv : v ≠ []) :
    momentPop k (some v) none = some ((v.map (fun x => (x - v.sum / v.length) ^ k)).sum / v.length) := by
  have hn : ((v.length : ℕ) : K) ≠ 0 := by rw [Nat.cast_ne_zero, ne_eq, List.length_eq_zero_iff]; exact hv
  simp only [momentPop, checkVW, hv, if_false, Option.bind_eq_bind, Option.bind_some, C51_mean v hv, Option.some.injEq]
  rw [eq_div_iff hn]
  have := runAvg_eq (v.map (fun x => (x - v.sum / v.length) ^ k)) 0 (0 : K)
  simpa using this

/-- **C53 (replicates).** Whole weights, at least two in all: the moment of the data with each element repeated. -/
theorem C53_replicates (k : ℕ) (v : List K) (w : List ℕ) (hw : v.length = w.length) (h2 : 2 ≤ w.sum) :
    momentPop k (some v) (some (ofCounts w)) = momentPop k (some (replicates w v)) none := by
  have hv : v ≠ [] := by
    intro e
    have : w = [] := List.length_eq_zero_iff.1 (by rw [← hw, e]; rfl)
    simp [this] at h2
  have hl := replicates_len w v hw
  have hr : replicates w v ≠ [] := by intro e; rw [e] at hl; simp at hl; omega
  obtain ⟨n1, n2, n3⟩ := nat_ge_two (K := K) h2
  rw [C53_pop k _ hr]
  simp only [momentPop, checkVW, hv, if_false, ne_eq, Option.bind_eq_bind]
  rw [if_neg (by simp [ofCounts, hw])]
  simp only [Option.bind_some, C51_replicates v w hv hw hr, C51_mean _ hr, powLoop_eq _ k v (ofCounts w) (by simp [ofCounts, hw]) (0, 0), zero_add, weightLen, ofCounts_sum,
    if_neg n1, cdiv, if_neg n2]
  rw [← replicates_sum (fun x => (x - (replicates w v).sum / ((replicates w v).length : K)) ^ k) w v hw, hl]

/-- **The "unbiased" fourth moment of apop_vector_kurtosis is not unbiased.** Over the four equally likely samples of size two from a fair coin (0 or 1), its average is -1/8; the fourth central
moment of the coin is 1/16. A fourth moment is never negative, but the estimate is. -/
theorem C58_values :
    vectorKurtosis ([0, 0] : List ℚ) = some 0 ∧ vectorKurtosis ([0, 1] : List ℚ) = some (-1 / 4) ∧
    vectorKurtosis ([1, 0] : List ℚ) = some (-1 / 4) ∧ vectorKurtosis ([1, 1] : List ℚ) = some 0 := by
  refine ⟨?_, ?_, ?_, ?_⟩ <;>
  · rw [vectorKurtosis, C53_pop 4 _ (by simp), C52_var _ (by simp)]
    norm_num [cdiv]

/-- Weights that sum to one: the moment is divided by the number of observations once more. -/
theorem C56_moments (k : ℕ) (v w : List K) (hv : v ≠ []) (hw : v.length = w.length) (h1 : w.sum = 1) :
    momentPop k (some v) (some w) =
      some ((List.zipWith (fun a x => a * (x - (List.zipWith (fun a x => a * x) w v).sum) ^ k) w v).sum / v.length) := by
  have hn : ((v.length : ℕ) : K) ≠ 0 := by rw [Nat.cast_ne_zero, ne_eq, List.length_eq_zero_iff]; exact hv
  simp only [momentPop, checkVW, hv, if_false, ne_eq, ← hw, not_true_eq_false, Option.bind_eq_bind, Option.bind_some, C51_weighted v w hv hw, h1, one_ne_zero, div_one,
    powLoop_eq _ k v w hw (0, 0), zero_add]
  rw [weightLen, if_pos (by norm_num)]
  simp [cdiv, hn]

omit [LinearOrder K] [IsStrictOrderedRing K] in
/-- **C53 (matrices).** `apop_matrix_mean_and_var` gives the population variance Σ(x - mean)²/N. -/
theorem C53_matrix_var [CharZero K] (rows : List (List K)) (h : rows.flatten ≠ []) :
    matrixMeanVar rows = (rows.flatten.sum / rows.flatten.length,
      (rows.flatten.map (fun x => (x - rows.flatten.sum / rows.flatten.length) ^ 2)).sum / (rows.flatten.length : K)) := by
  have hn : ((rows.flatten.length : ℕ) : K) ≠ 0 := by rw [Nat.cast_ne_zero, ne_eq, List.length_eq_zero_iff]; exact h
  have h1 := meanRun_eq rows.flatten 0 (0 : K)
  have h2 := meanRun_eq (rows.flatten.map (· ^ 2)) 0 (0 : K)
  simp only [List.length_map, Nat.zero_add, Nat.cast_zero, mul_zero, zero_add] at h1 h2
  have h1' : meanRun 0 0 rows.flatten = rows.flatten.sum / rows.flatten.length := by rw [eq_div_iff hn]; exact h1
  have h2' : meanRun 0 0 (rows.flatten.map (· ^ 2)) = (rows.flatten.map (fun x : K => x ^ 2)).sum / (rows.flatten.length : K) := by rw [eq_div_iff hn]; exact h2
  simp only [matrixMeanVar, h1', h2', Prod.mk.injEq, true_and]
  rw [sum_sq_dev]
  field_simp
  ring

end Apop.Stats
