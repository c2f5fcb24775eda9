import Verif.Dist.Multinomial
import Mathlib.Analysis.SpecialFunctions.Exp
import Mathlib.Algebra.BigOperators.Group.List.Basic
import Mathlib.Tactic.IntervalCases

/-! # C147-C148: estimates of and draws from the multinomial (model/apop_multinomial.c) -/

namespace Apop.Dist.Multinomial

open Apop Real Apop.Density

/-! ## Estimates -/

/-- `apop_map(data, .fn_v=avs, .part='c')`, model/apop_multinomial.c:177: the total of each of the `k` columns. -/
def colSums (k : ℕ) (rows : List (List ℕ)) : List ℝ := (List.range k).map fun j => (((rows.map fun r => r.getD j 0).sum : ℕ) : ℝ)

/-- Conversion of a nonnegative `double` to `int`. -/
noncomputable def trunc (x : ℝ) : ℝ := (⌊x⌋ : ℝ)

/-- The parameters `multinomial_estimate` sets, model/apop_multinomial.c:177-183: the shares (`apop_vector_normalize`'s default), with the average total (cut to an integer) in place of the first. -/
noncomputable def estimate (k : ℕ) (rows : List (List ℕ)) : List ℝ :=
  trunc ((colSums k rows).sum / rows.length) :: ((colSums k rows).map fun c => c / (colSums k rows).sum).tail

/-- `est->dsize` after estimation, model/apop_multinomial.c:189. -/
noncomputable def estDsize (k : ℕ) (rows : List (List ℕ)) : ℝ := trunc ((colSums k rows).sum / rows.length)

/-- A cell of the `<Covariance>` page, `make_covar`, model/apop_multinomial.c:46-66. -/
noncomputable def covCell (v : List ℝ) (i j : ℕ) : ℝ :=
  if i = j then trunc (v.getD 0 0) * (toP v).getD i 0 * (1 - (toP v).getD i 0) else -trunc (v.getD 0 0) * (toP v).getD i 0 * (toP v).getD j 0

theorem zip_prod : ∀ (q : List ℝ) (r : List ℕ), r.length = q.length → (List.zipWith (fun p n => p ^ n) q r).prod = ∏ j ∈ Finset.range q.length, q.getD j 0 ^ r.getD j 0
  | [], r, _ => by simp
  | p :: q, [], h => by simp at h
  | p :: q, n :: r, h => by
    rw [List.zipWith_cons_cons, List.prod_cons, zip_prod q r (by simpa using h), List.length_cons, Finset.prod_range_succ']
    simp [mul_comm]

theorem rows_prod (q : List ℝ) (rows : List (List ℕ)) (hr : ∀ r ∈ rows, r.length = q.length) :
    (rows.map (pmf q)).prod = (rows.map fun r => (ways r : ℝ)).prod * ∏ j ∈ Finset.range q.length, q.getD j 0 ^ (rows.map fun r => r.getD j 0).sum := by
  induction rows with
  | nil => simp
  | cons r l ih =>
    rw [List.map_cons, List.prod_cons, ih fun x hx => hr x (by simp [hx]), pmf, zip_prod q r (hr r (by simp))]
    simp only [List.map_cons, List.prod_cons, List.sum_cons, pow_add, Finset.prod_mul_distrib]
    ring

theorem colSums_length (k : ℕ) (rows : List (List ℕ)) : (colSums k rows).length = k := by simp [colSums]

theorem colSums_getD (k j : ℕ) (hj : j < k) (rows : List (List ℕ)) : (colSums k rows).getD j 0 = (((rows.map fun r => r.getD j 0).sum : ℕ) : ℝ) := by
  simp [colSums, hj]

theorem colSums_nonneg (k : ℕ) (rows : List (List ℕ)) : ∀ c ∈ colSums k rows, 0 ≤ c := by
  intro c hc
  obtain ⟨j, -, rfl⟩ := List.mem_map.mp hc
  exact Nat.cast_nonneg _

theorem toP_estimate (k : ℕ) (hk : 0 < k) (rows : List (List ℕ)) (hC : (colSums k rows).sum ≠ 0) :
    toP (estimate k rows) = (colSums k rows).map fun c => c / (colSums k rows).sum := by
  obtain ⟨c, l, e⟩ : ∃ c l, colSums k rows = c :: l := by
    cases h : colSums k rows with
    | nil => have := colSums_length k rows; rw [h] at this; simp at this; omega
    | cons c l => exact ⟨c, l, rfl⟩
  have hs : ∀ l : List ℝ, ∀ d : ℝ, (l.map fun c => c / d).sum = l.sum / d := by
    intro l d; induction l with
    | nil => simp
    | cons a l ih => simp only [List.map_cons, List.sum_cons, ih]; ring
  unfold estimate toP
  rw [e] at hC ⊢
  simp only [List.map_cons, List.tail_cons, List.cons.injEq, and_true, List.sum_cons, hs] at hC ⊢
  field_simp
  ring

/-- C147: the estimated probabilities — the zeroth being what the others leave — are the bins' shares of all the draws; n is the average total of a row, cut to an integer. -/
theorem C147_estimate (k : ℕ) (hk : 0 < k) (rows : List (List ℕ)) (hC : (colSums k rows).sum ≠ 0) :
    toP (estimate k rows) = (colSums k rows).map (fun c => c / (colSums k rows).sum) ∧ (estimate k rows).getD 0 0 = trunc ((colSums k rows).sum / rows.length) :=
  ⟨toP_estimate k hk rows hC, rfl⟩

theorem gibbs (q C : ℝ) (c : ℕ) (hq : 0 ≤ q) (hC : 0 < C) : q ^ c ≤ (c / C) ^ c * exp (C * q - c) := by
  rcases Nat.eq_zero_or_pos c with rfl | hc
  · simp; positivity
  · have hc' : (0 : ℝ) < c := by exact_mod_cast hc
    have h1 : q * C / c ≤ exp (q * C / c - 1) := by have := add_one_le_exp (q * C / c - 1); linarith
    have h2 : (q * C / c) ^ c ≤ exp (q * C / c - 1) ^ c := pow_le_pow_left₀ (by positivity) h1 c
    rw [← exp_nat_mul] at h2
    have e1 : (c : ℝ) * (q * C / c - 1) = C * q - c := by field_simp
    have e2 : q ^ c = (c / C) ^ c * (q * C / c) ^ c := by rw [← mul_pow]; congr 1; field_simp
    rw [e1] at h2
    rw [e2]
    exact mul_le_mul_of_nonneg_left h2 (by positivity)

theorem sum_getD : ∀ l : List ℝ, ∑ j ∈ Finset.range l.length, l.getD j 0 = l.sum
  | [] => by simp
  | a :: l => by rw [List.length_cons, Finset.sum_range_succ', List.sum_cons, ← sum_getD l]; simp [add_comm]

/-- C147: no other probabilities make the data more likely. -/
theorem C147_best (k : ℕ) (hk : 0 < k) (rows : List (List ℕ)) (hr : ∀ r ∈ rows, r.length = k) (hC : (colSums k rows).sum ≠ 0) (q : List ℝ) (hq : q.length = k) (hq0 : ∀ p ∈ q, 0 ≤ p) (hq1 : q.sum = 1) :
    (rows.map (pmf q)).prod ≤ (rows.map (pmf (toP (estimate k rows)))).prod := by
  rw [toP_estimate k hk rows hC]
  set C := (colSums k rows).sum with hCdef
  have hCpos : 0 < C := lt_of_le_of_ne (List.sum_nonneg (colSums_nonneg k rows)) (Ne.symm hC)
  have hl : ((colSums k rows).map fun c => c / C).length = k := by simp [colSums_length]
  rw [rows_prod q rows (by rw [hq]; exact hr), rows_prod _ rows (by rw [hl]; exact hr), hl, hq]
  apply mul_le_mul_of_nonneg_left _ (List.prod_nonneg (by intro x hx; obtain ⟨r, -, rfl⟩ := List.mem_map.mp hx; exact Nat.cast_nonneg _))
  have hqj : ∀ j, 0 ≤ q.getD j 0 := by
    intro j
    by_cases h : j < q.length
    · rw [List.getD_eq_getElem _ _ h]; exact hq0 _ (List.getElem_mem h)
    · rw [List.getD_eq_default _ _ (by omega)]
  have hg : ∀ j ∈ Finset.range k, ((colSums k rows).map fun c => c / C).getD j 0 = ((rows.map fun r => r.getD j 0).sum : ℕ) / C := by
    intro j hj
    have hj' := Finset.mem_range.mp hj
    rw [List.getD_eq_getElem _ _ (by rw [hl]; exact hj'), List.getElem_map, ← colSums_getD k j hj' rows, List.getD_eq_getElem _ _ (by rw [colSums_length]; exact hj')]
  calc ∏ j ∈ Finset.range k, q.getD j 0 ^ (rows.map fun r => r.getD j 0).sum
      ≤ ∏ j ∈ Finset.range k, ((((rows.map fun r => r.getD j 0).sum : ℕ) / C) ^ (rows.map fun r => r.getD j 0).sum * exp (C * q.getD j 0 - ((rows.map fun r => r.getD j 0).sum : ℕ))) :=
        Finset.prod_le_prod (fun j _ => pow_nonneg (hqj j) _) fun j _ => gibbs _ _ _ (hqj j) hCpos
    _ = ∏ j ∈ Finset.range k, (((colSums k rows).map fun c => c / C).getD j 0) ^ (rows.map fun r => r.getD j 0).sum := by
        rw [Finset.prod_mul_distrib, ← exp_sum, Finset.sum_sub_distrib, ← Finset.mul_sum]
        have e1 : ∑ j ∈ Finset.range k, q.getD j 0 = 1 := by rw [← hq, sum_getD, hq1]
        have e2 : ∑ j ∈ Finset.range k, (((rows.map fun r => r.getD j 0).sum : ℕ) : ℝ) = C := by
          rw [hCdef, ← sum_getD, colSums_length]
          exact Finset.sum_congr rfl fun j hj => (colSums_getD k j (Finset.mem_range.mp hj) rows).symm
        rw [e1, e2, mul_one, sub_self, exp_zero, mul_one]
        exact Finset.prod_congr rfl fun j hj => by rw [hg j hj]

/-- C147: the `<Covariance>` page is symmetric, has n pᵢ(1−pᵢ) on its diagonal and −n pᵢ pⱼ off it — the covariance of the counts in one row — so its rows sum to zero. -/
theorem C147_covariance (v : List ℝ) (hv : v ≠ []) (i j : ℕ) :
    covCell v i j = covCell v j i ∧ covCell v i j = trunc (v.getD 0 0) * ((if i = j then (toP v).getD i 0 else 0) - (toP v).getD i 0 * (toP v).getD j 0) ∧
      (i < v.length → ∑ c ∈ Finset.range v.length, covCell v i c = 0) := by
  have hform : ∀ c, covCell v i c = trunc (v.getD 0 0) * ((if i = c then (toP v).getD i 0 else 0) - (toP v).getD i 0 * (toP v).getD c 0) := by
    intro c
    unfold covCell
    split
    · rename_i h; subst h; ring
    · ring
  refine ⟨?_, hform j, ?_⟩
  · unfold covCell
    by_cases h : i = j
    · subst h; rfl
    · rw [if_neg h, if_neg (Ne.symm h)]; ring
  · intro hi
    simp only [hform]
    rw [← Finset.mul_sum, Finset.sum_sub_distrib, ← Finset.mul_sum, Finset.sum_ite_eq, if_pos (Finset.mem_range.mpr hi)]
    have := sum_getD (toP v)
    rw [toP_length] at this
    rw [this, toP_sum v hv]
    ring

/-- C147 (refuted): that the page has the variance of the estimated probabilities (as documented): for a share of n·M draws that is p(1−p)/(nM); what is there is n²M times that. -/
theorem C147_variance_refuted (n M : ℕ) (hn : 0 < n) (hM : 0 < M) (p : ℝ) : covCell [(n : ℝ), p] 1 1 = (n : ℝ) ^ 2 * M * (p * (1 - p) / (n * M)) := by
  have h1 : (n : ℝ) ≠ 0 := by positivity
  have h2 : (M : ℝ) ≠ 0 := by positivity
  simp [covCell, toP, trunc]
  field_simp

/-- Two rows of three draws in three bins. -/
example : toP (estimate 3 [[1, 1, 1], [0, 3, 0]]) = [1 / 6, 4 / 6, 1 / 6] ∧ (estimate 3 [[1, 1, 1], [0, 3, 0]]).getD 0 0 = 3 := by
  have e : colSums 3 [[1, 1, 1], [0, 3, 0]] = [1, 4, 1] := by simp [colSums, List.range_succ]; norm_num
  have h := C147_estimate 3 (by norm_num) [[1, 1, 1], [0, 3, 0]] (by rw [e]; norm_num)
  rw [e] at h
  constructor
  · rw [h.1]; norm_num
  · rw [h.2]; norm_num [trunc]

/-! ## Draws -/

/-- The probability that the loop at model/apop_multinomial.c:150-156 writes the counts `ns`, when `s` is `1 - sum_p` and `N` is `N - sum_n`. `gsl_ran_binomial` by its documentation. -/
noncomputable def loopProb : List ℝ → ℝ → ℕ → List ℕ → ℝ
  | [], _, _, [] => 1
  | p :: ps, s, N, n :: ns => (if p > 0 then binPmf N (p / s) n else if n = 0 then 1 else 0) * loopProb ps (s - p) (N - n) ns
  | _, _, _, _ => 0

/-- The probability that `multinomial_rng`, model/apop_multinomial.c:132-160, writes `ns` for the parameters n = `N`, `ps`. With two parameters: the misses, then the rest. -/
noncomputable def drawProb (N : ℕ) (ps : List ℝ) (ns : List ℕ) : ℝ :=
  match ps, ns with
  | [p], [a, b] => if a ≤ N ∧ b = N - a then binPmf N (1 - p) a else 0
  | [_], _ => 0
  | ps, ns => loopProb (toP ((N : ℝ) :: ps)) 1 N ns

/-- The parameters afterwards, line 158. -/
noncomputable def drawRestores : List ℝ → List ℝ
  | [] => []
  | n :: ps => trunc n :: ps

theorem loop_zero : ∀ (ps : List ℝ) (s : ℝ) (N : ℕ) (ns : List ℕ), (∀ p ∈ ps, p = 0) → ns.length = ps.length → loopProb ps s N ns = if ns.sum = 0 then 1 else 0
  | [], _, _, [], _, _ => by simp [loopProb]
  | p :: ps, s, N, n :: ns, h, hl => by
    rw [loopProb, loop_zero ps _ _ ns (fun q hq => h q (by simp [hq])) (by simpa using hl), if_neg (by rw [h p (by simp)]; simp)]
    by_cases h1 : n = 0 <;> simp [h1]

theorem loop_eq : ∀ (ps : List ℝ) (N : ℕ) (ns : List ℕ), (∀ p ∈ ps, 0 ≤ p) → ns.length = ps.length →
    loopProb ps ps.sum N ns * ps.sum ^ N = if ns.sum = N ∨ ps.sum = 0 then (if ns.sum = N then pmf ps ns else 0) else 0
  | [], N, [], _, _ => by
    by_cases h : N = 0
    · subst h; simp [loopProb, pmf, ways]
    · simp [loopProb, h, Ne.symm h]
  | p :: ps, N, n :: ns, hp, hl => by
    have hp0 := hp p (by simp)
    have hps : ∀ q ∈ ps, 0 ≤ q := fun q hq => hp q (by simp [hq])
    have hs0 : 0 ≤ ps.sum := List.sum_nonneg hps
    have hl' : ns.length = ps.length := by simpa using hl
    have ih := loop_eq ps (N - n) ns hps hl'
    rw [loopProb, List.sum_cons]
    have es : p + ps.sum - p = ps.sum := by ring
    rw [es]
    have hpm : pmf (p :: ps) (n :: ns) = ((n + ns.sum).choose n : ℝ) * p ^ n * pmf ps ns := by
      simp only [pmf, ways, List.zipWith_cons_cons, List.prod_cons]; push_cast; ring
    by_cases hz : p > 0
    · have hpos : 0 < p + ps.sum := by linarith
      rw [if_pos hz]
      simp only [hpos.ne', or_false, List.sum_cons]
      unfold binPmf
      by_cases hn : n > N
      · rw [if_pos hn, if_neg (by omega)]; ring
      · rw [if_neg hn]
        have e1 : 1 - p / (p + ps.sum) = ps.sum / (p + ps.sum) := by field_simp; ring
        have e2 : (p + ps.sum) ^ N = (p + ps.sum) ^ n * (p + ps.sum) ^ (N - n) := by rw [← pow_add]; congr 1; omega
        have e3 : ((N.choose n : ℝ) * (p / (p + ps.sum)) ^ n * (1 - p / (p + ps.sum)) ^ (N - n)) * loopProb ps ps.sum (N - n) ns * (p + ps.sum) ^ N =
            (N.choose n : ℝ) * p ^ n * (loopProb ps ps.sum (N - n) ns * ps.sum ^ (N - n)) := by
          rw [e1, e2, div_pow, div_pow]
          have h1 : (p + ps.sum) ^ n ≠ 0 := pow_ne_zero _ hpos.ne'
          have h2 : (p + ps.sum) ^ (N - n) ≠ 0 := pow_ne_zero _ hpos.ne'
          field_simp
        rw [e3, ih]
        by_cases hsum : ns.sum = N - n
        · have : n + ns.sum = N := by omega
          rw [if_pos (Or.inl hsum), if_pos hsum, if_pos this, hpm]; simp [this]
        · have : ¬ n + ns.sum = N := by omega
          rw [if_neg this, if_neg hsum]
          simp
    · have hpz : p = 0 := le_antisymm (not_lt.mp hz) hp0
      subst hpz
      rw [if_neg (lt_irrefl _), zero_add]
      simp only [List.sum_cons]
      by_cases hn : n = 0
      · subst hn
        rw [if_pos rfl, one_mul, Nat.sub_zero]
        rw [Nat.sub_zero] at ih
        rw [ih, hpm]
        simp
      · rw [if_neg hn, zero_mul, zero_mul, hpm, zero_pow hn]
        simp
  | [], _, _ :: _, _, h => by simp at h
  | _ :: _, _, [], _, h => by simp at h

theorem loop_one (ps : List ℝ) (hs : ps.sum = 1) (hp : ∀ p ∈ ps, 0 ≤ p) (N : ℕ) (ns : List ℕ) (hl : ns.length = ps.length) :
    loopProb ps 1 N ns = if ns.sum = N then pmf ps ns else 0 := by
  have := loop_eq ps N ns hp hl
  rw [hs, one_pow, mul_one] at this
  rw [this]
  by_cases h : ns.sum = N <;> simp [h]

/-- C148: the counts drawn have exactly the multinomial probabilities, and always total n. -/
theorem C148_law (N : ℕ) (ps : List ℝ) (hne : ps ≠ []) (hp : ∀ p ∈ ps, 0 ≤ p) (hs : ps.sum ≤ 1) (ns : List ℕ) (hl : ns.length = ps.length + 1) :
    drawProb N ps ns = if ns.sum = N then pmf ((1 - ps.sum) :: ps) ns else 0 := by
  have e : toP ((N : ℝ) :: ps) = (1 - ps.sum) :: ps := by simp [toP]
  have gen : loopProb (toP ((N : ℝ) :: ps)) 1 N ns = if ns.sum = N then pmf ((1 - ps.sum) :: ps) ns else 0 := by
    rw [e]
    apply loop_one
    · simp
    · intro p h
      rcases List.mem_cons.mp h with rfl | h
      · linarith
      · exact hp p h
    · simpa using hl
  match ps, ns, hne, hl, gen with
  | [p], [a, b], _, _, _ =>
    simp only [drawProb, List.sum_cons, List.sum_nil, add_zero]
    by_cases h : a + b = N
    · rw [if_pos h, if_pos ⟨by omega, by omega⟩]
      have hb : b = N - a := by omega
      simp only [binPmf, pmf, ways, List.sum_cons, List.sum_nil, List.zipWith_cons_cons, List.zipWith_nil_left, List.prod_cons, List.prod_nil]
      rw [if_neg (by omega), add_zero, h, hb]
      simp
      ring
    · rw [if_neg h, if_neg (by omega)]
  | p :: q :: ps, ns, _, _, gen => simpa [drawProb] using gen

/-- C148: the parameters are as before, if n is a whole number. -/
theorem C148_restores (n : ℕ) (ps : List ℝ) : drawRestores ((n : ℝ) :: ps) = (n : ℝ) :: ps := by simp [drawRestores, trunc]

/-- C148 (refuted): if n isn't, a draw cuts it. -/
theorem C148_restores_refuted : drawRestores [5 / 2, 1 / 2] = [2, 1 / 2] := by
  simp only [drawRestores, trunc]
  have : ⌊(5 / 2 : ℝ)⌋ = 2 := by rw [Int.floor_eq_iff]; norm_num
  rw [this]; norm_num

/-- C148 (refuted): that a draw from a binomial is the number of hits: the first number written is the number of misses, and a second is written after it, although the model says its draws are of size one. -/
theorem C148_binomial_refuted (N : ℕ) (p : ℝ) (a : ℕ) (ha : a ≤ N) :
    drawProb N [p] [a] = 0 ∧ drawProb N [p] [a, N - a] = binPmf N (1 - p) a := by
  simp [drawProb, ha]

theorem colSums_sum (k : ℕ) : ∀ rows : List (List ℕ), (∀ r ∈ rows, r.length = k) → (colSums k rows).sum = ((rows.map List.sum).sum : ℕ)
  | [], _ => by simp [colSums]
  | r :: rows, h => by
    have ih := colSums_sum k rows fun q hq => h q (List.mem_cons_of_mem _ hq)
    have hr : r.sum = ((List.range k).map fun j => r.getD j 0).sum := by
      have : (List.range k).map (fun j => r.getD j 0) = r := by
        apply List.ext_getElem
        · simp [h r List.mem_cons_self]
        · intro i h1 h2; simp [h2]
      rw [this]
    have split : (colSums k (r :: rows)).sum = (((List.range k).map fun j => r.getD j 0).sum : ℕ) + (colSums k rows).sum := by
      unfold colSums
      generalize List.range k = l
      induction l with
      | nil => simp
      | cons a l ihl =>
        simp only [List.map_cons, List.sum_cons, Nat.cast_add] at ihl ⊢
        rw [ihl]; ring
    rw [split, ih, List.map_cons, List.sum_cons, ← hr]; push_cast; ring

/-- C147, C148: if every observation has the same total, that is the n estimated, and the size of draws set. -/
theorem C147_total (k : ℕ) (rows : List (List ℕ)) (hne : rows ≠ []) (N : ℕ) (hl : ∀ r ∈ rows, r.length = k) (hN : ∀ r ∈ rows, r.sum = N) :
    (estimate k rows).getD 0 0 = N ∧ estDsize k rows = N := by
  have e : (rows.map List.sum).sum = rows.length * N := by
    rw [List.map_congr_left hN]; simp
  have hpos : (rows.length : ℝ) ≠ 0 := by
    have := List.length_pos_iff.2 hne
    exact_mod_cast this.ne'
  have key : trunc ((colSums k rows).sum / rows.length) = N := by
    rw [colSums_sum k rows hl, e, Nat.cast_mul, mul_div_cancel_left₀ _ hpos]; simp [trunc]
  exact ⟨key, key⟩

example : (estimate 3 [[1, 1, 0], [0, 2, 0]]).getD 0 0 = 2 ∧ estDsize 3 [[1, 1, 0], [0, 2, 0]] = 2 := by
  simpa using C147_total 3 [[1, 1, 0], [0, 2, 0]] (by simp) 2 (by simp) (by simp)

/-- C148 (refuted): that the size of draws is set to the number of bins by an estimation: it is the number of draws per row, here 2 for three bins. -/
theorem C148_dsize_refuted : estDsize 3 [[1, 1, 0]] = 2 ∧ (toP (estimate 3 [[1, 1, 0]])).length = 3 := by
  have e : colSums 3 [[1, 1, 0]] = [1, 1, 0] := by simp [colSums, List.range_succ]
  constructor
  · unfold estDsize; rw [e]; norm_num [trunc]
  · rw [toP_length, estimate, e]; simp

/-- Four draws in three bins. -/
example : drawProb 4 [1 / 2, 1 / 4] [1, 2, 1] = 3 / 16 := by
  rw [C148_law 4 _ (by simp) (by simp) (by norm_num) _ rfl, if_pos (by norm_num)]
  simp [pmf, ways]
  have : Nat.choose 4 1 = 4 := rfl
  have : Nat.choose 3 2 = 3 := rfl
  norm_num [*]

end Apop.Dist.Multinomial
