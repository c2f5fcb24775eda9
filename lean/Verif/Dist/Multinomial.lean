import Verif.Density.Kernel
import Mathlib.Data.Nat.Choose.Multinomial
import Mathlib.Analysis.SpecialFunctions.Log.Basic
import Mathlib.Tactic.FieldSimp
import Mathlib.Tactic.Linarith

/-! # C146-C148: the multinomial and binomial (model/apop_multinomial.c)

Exact arithmetic. A row of data is a list of counts (whole numbers; the code converts them to `unsigned int`). The parameter vector is n, p₁, …, p_{k−1}. -/

namespace Apop.Dist.Multinomial

open Apop Real Apop.Density

/-- The trick that turns the parameters into probabilities, `pv[0] = 1 - (apop_sum(v) - n)`, model/apop_multinomial.c:115. -/
def toP : List ℝ → List ℝ
  | [] => []
  | n :: ps => (1 - ((n :: ps).sum - n)) :: ps

/-- A multiple of a log. -/
noncomputable def times (n : ℕ) : LL → LL
  | .ninf => .ninf
  | .fin a => .fin (a * n)

/-- One term of `gsl_ran_multinomial_lnpdf`: bins without hits add nothing. -/
noncomputable def lnTerm (norm p : ℝ) (n : ℕ) : LL := if n > 0 then (times n (elog (p / norm))).add (.fin (-log n.factorial)) else .fin 0

/-- The loop of `gsl_ran_multinomial_lnpdf` over the `size` bins of the probabilities; a shorter row is read past its end. -/
noncomputable def lnLoop (norm : ℝ) : List ℝ → List ℕ → LL → Res LL
  | [], _, acc => .ok acc
  | _ :: _, [], _ => .ub
  | p :: ps, n :: ns, acc => lnLoop norm ps ns (acc.add (lnTerm norm p n))

/-- `gsl_ran_multinomial_lnpdf` (GSL, randist/multinomial.c), for nonnegative probabilities. -/
noncomputable def lnpdf (ps : List ℝ) (ns : List ℕ) : Res LL := lnLoop ps.sum ps ns (.fin (log ((ns.take ps.length).sum.factorial)))

/-- `gsl_ran_binomial_pdf` (GSL). -/
def binPmf (N : ℕ) (p : ℝ) (k : ℕ) : ℝ := if k > N then 0 else N.choose k * p ^ k * (1 - p) ^ (N - k)

/-- `binomial_ll`, model/apop_multinomial.c:88-90, with n = 2: only element 1 of the row is looked at. -/
noncomputable def binRow (p : ℝ) (row : List ℕ) : Res LL := (rd row 1).bind fun h => .ok (elog (binPmf 2 p h))

/-- `apop_map_sum` over the rows. -/
noncomputable def sumRows (f : List ℕ → Res LL) : List (List ℕ) → LL → Res LL
  | [], acc => .ok acc
  | r :: l, acc => (f r).bind fun x => sumRows f l (acc.add x)

/-- What `multinomial_log_likelihood` returns: NaN (none) or a number, and the parameters afterwards. -/
noncomputable def ll (v : List ℝ) (rows : List (List ℕ)) : Res (Option LL × List ℝ) :=
  match v with
  | n :: p1 :: ps =>
    if p1 ≤ 1 then
      (if n = 2 then sumRows (binRow p1) rows (.fin 0) else sumRows (lnpdf (toP (n :: p1 :: ps))) rows (.fin 0)).bind fun x => .ok (some x, n :: (toP (n :: p1 :: ps)).tail)
    else .ok (none, v)
  | _ => .ok (none, v)

/-! ### Specification -/

/-- The number of ways to put `ns.sum` things into bins with `ns` of them each. -/
def ways : List ℕ → ℕ
  | [] => 1
  | n :: ns => (n + ns.sum).choose n * ways ns

/-- The probability of the counts `ns` when the bins have probabilities `ps`: ways × ∏ pᵢ^nᵢ. -/
def pmf (ps : List ℝ) (ns : List ℕ) : ℝ := ways ns * (List.zipWith (fun p n => p ^ n) ps ns).prod

/-! ### Lemmas -/

theorem ways_factorial : ∀ ns : List ℕ, ways ns * (ns.map Nat.factorial).prod = ns.sum.factorial
  | [] => rfl
  | n :: ns => by
    have h := Nat.add_choose_mul_factorial_mul_factorial n ns.sum
    have ih := ways_factorial ns
    have hc : (n + ns.sum).choose n = (n + ns.sum).choose ns.sum := by
      rw [← Nat.choose_symm (by omega : ns.sum ≤ n + ns.sum)]; congr 1; omega
    rw [ways, List.map_cons, List.prod_cons, List.sum_cons, ← h, ← ih, hc]
    ring

theorem ways_pos (ns : List ℕ) : 0 < ways ns := by
  induction ns with
  | nil => simp [ways]
  | cons n ns ih => rw [ways]; exact Nat.mul_pos (Nat.choose_pos (by omega)) ih

theorem elog_pow (p : ℝ) (n : ℕ) (hn : 0 < n) : elog (p ^ n) = times n (elog p) := by
  unfold elog
  by_cases h : p = 0
  · simp [h, times, hn.ne']
  · rw [if_neg h, if_neg (pow_ne_zero n h), times, log_pow, mul_comm]

theorem add_assoc' (a b c : LL) : (a.add b).add c = a.add (b.add c) := by
  cases a <;> cases b <;> cases c <;> simp [LL.add, add_assoc]

theorem lnLoop_eq (ps : List ℝ) : ∀ (ns : List ℕ) (c : ℝ), 0 < c → ns.length = ps.length →
    lnLoop 1 ps ns (elog c) = .ok (elog (c * (List.zipWith (fun p n => p ^ n) ps ns).prod / (ns.map Nat.factorial).prod)) := by
  have key : ∀ (ps : List ℝ) (ns : List ℕ) (c : ℝ), ns.length = ps.length →
      lnLoop 1 ps ns (elog c) = .ok (elog (c * (List.zipWith (fun p n => p ^ n) ps ns).prod / (ns.map Nat.factorial).prod)) := by
    intro ps
    induction ps with
    | nil => intro ns c h; have : ns = [] := List.length_eq_zero_iff.mp (by simpa using h); subst this; simp [lnLoop]
    | cons p ps ih =>
      intro ns c h
      match ns, h with
      | n :: ns, h =>
        rw [lnLoop]
        have ht : (elog c).add (lnTerm 1 p n) = elog (c * (p ^ n / n.factorial)) := by
          unfold lnTerm
          by_cases hn : n > 0
          · have hf : (n.factorial : ℝ) ≠ 0 := by exact_mod_cast n.factorial_ne_zero
            have e : LL.fin (-log n.factorial) = elog ((n.factorial : ℝ)⁻¹) := by rw [elog, if_neg (inv_ne_zero hf), log_inv]
            rw [if_pos hn, div_one, ← elog_pow p n hn, e, ← elog_mul, ← elog_mul, div_eq_mul_inv]
          · have : n = 0 := by omega
            subst this
            have e : LL.fin 0 = elog 1 := by rw [elog, if_neg one_ne_zero, log_one]
            rw [if_neg (by simp), e, ← elog_mul]; simp
        rw [ht, ih ns _ (by simpa using h)]
        congr 2
        simp only [List.zipWith_cons_cons, List.prod_cons, List.map_cons]
        push_cast
        ring
  intro ns c _ h
  exact key ps ns c h

theorem lnpdf_eq (ps : List ℝ) (hs : ps.sum = 1) (ns : List ℕ) (hl : ns.length = ps.length) : lnpdf ps ns = .ok (elog (pmf ps ns)) := by
  have hf : (0 : ℝ) < (ns.sum.factorial : ℝ) := by exact_mod_cast Nat.factorial_pos _
  have e : LL.fin (log (ns.sum.factorial : ℝ)) = elog (ns.sum.factorial : ℝ) := by rw [elog, if_neg hf.ne']
  unfold lnpdf
  rw [hs, ← hl, List.take_length, e, lnLoop_eq ps ns _ hf hl]
  congr 2
  unfold pmf
  have hw := ways_factorial ns
  have hw' : (ways ns : ℝ) * ((ns.map Nat.factorial).prod : ℕ) = (ns.sum.factorial : ℝ) := by exact_mod_cast hw
  have hp : (((ns.map Nat.factorial).prod : ℕ) : ℝ) ≠ 0 := by
    intro h0
    rw [h0, mul_zero] at hw'
    exact hf.ne hw'
  rw [← hw']
  field_simp

theorem toP_sum (v : List ℝ) (h : v ≠ []) : (toP v).sum = 1 := by
  match v, h with
  | n :: ps, _ => simp [toP]

theorem toP_length (v : List ℝ) : (toP v).length = v.length := by
  cases v <;> simp [toP]

theorem sumRows_eq (f : List ℕ → Res LL) (g : List ℕ → ℝ) : ∀ (rows : List (List ℕ)) (c : ℝ), (∀ r ∈ rows, f r = .ok (elog (g r))) →
    sumRows f rows (elog c) = .ok (elog (c * (rows.map g).prod))
  | [], c, _ => by simp [sumRows]
  | r :: l, c, h => by
    rw [sumRows, h r (by simp)]
    show sumRows f l ((elog c).add (elog (g r))) = _
    rw [← elog_mul, sumRows_eq f g l _ fun x hx => h x (by simp [hx]), List.map_cons, List.prod_cons, mul_assoc]

theorem fin0 : LL.fin 0 = elog 1 := by rw [elog, if_neg one_ne_zero, log_one]

/-! ### C146 -/

/-- C146: with n other than two, the log likelihood is the log of the product of the multinomial probabilities of the rows, p₀ being what the others leave; the parameters are as before. -/
theorem C146_ll (n p1 : ℝ) (ps : List ℝ) (hn : n ≠ 2) (hp : p1 ≤ 1) (rows : List (List ℕ)) (hr : ∀ r ∈ rows, r.length = ps.length + 2) :
    ll (n :: p1 :: ps) rows = .ok (some (elog ((rows.map (pmf ((1 - (p1 + ps.sum)) :: p1 :: ps))).prod)), n :: p1 :: ps) := by
  have e : toP (n :: p1 :: ps) = (1 - (p1 + ps.sum)) :: p1 :: ps := by simp [toP]
  unfold ll
  simp only [if_pos hp, if_neg hn]
  rw [fin0, sumRows_eq _ (pmf (toP (n :: p1 :: ps))) rows 1 (fun r h => lnpdf_eq _ (toP_sum _ (by simp)) r (by rw [toP_length, hr r h]; simp)), e, one_mul]
  rfl

/-- C146: with n = 2 and two bins, the same, for rows of two draws. -/
theorem C146_ll_two (p1 : ℝ) (hp : p1 ≤ 1) (rows : List (List ℕ)) (hr : ∀ r ∈ rows, ∃ a b, r = [a, b] ∧ a + b = 2) :
    ll [2, p1] rows = .ok (some (elog ((rows.map (pmf [1 - p1, p1])).prod)), [2, p1]) := by
  unfold ll
  simp only [if_pos hp, if_true]
  rw [fin0, sumRows_eq _ (pmf [1 - p1, p1]) rows 1, one_mul]
  · rfl
  · intro r h
    obtain ⟨a, b, rfl, hab⟩ := hr r h
    have hb : ¬ b > 2 := by omega
    simp only [binRow, rd, List.getElem?_cons_succ, List.getElem?_cons_zero, Res.bind, binPmf, if_neg hb, pmf, ways, List.sum_cons, List.sum_nil, List.zipWith_cons_cons, List.zipWith_nil_left, List.prod_cons, List.prod_nil]
    congr 2
    have ha : a = 2 - b := by omega
    have h2 : (a + (b + 0)) = 2 := by omega
    rw [h2, ha, Nat.choose_symm (by omega)]
    simp
    ring

theorem sum_prod_choose (N : ℕ) (a b : ℝ) : ∑ m ∈ Finset.range (N + 1), (N.choose m : ℝ) * (a ^ m * b ^ (N - m)) = (a + b) ^ N := by
  rw [add_pow]
  apply Finset.sum_congr rfl
  intro m _
  ring

/-- All lists of `k` counts with total `N`. -/
def countLists : ℕ → ℕ → List (List ℕ)
  | 0, N => if N = 0 then [[]] else []
  | k + 1, N => (List.range (N + 1)).flatMap fun n => (countLists k (N - n)).map (n :: ·)

theorem mem_countLists : ∀ (k N : ℕ) (ns : List ℕ), ns ∈ countLists k N ↔ ns.length = k ∧ ns.sum = N
  | 0, N, ns => by
    unfold countLists
    split
    · rename_i h; subst h; simp only [List.mem_singleton]
      constructor
      · rintro rfl; simp
      · intro h; exact List.length_eq_zero_iff.mp h.1
    · rename_i h
      simp only [List.not_mem_nil, false_iff, not_and]
      intro h1
      have : ns = [] := List.length_eq_zero_iff.mp h1
      subst this
      simpa using Ne.symm h
  | k + 1, N, ns => by
    unfold countLists
    simp only [List.mem_flatMap, List.mem_range, List.mem_map]
    constructor
    · rintro ⟨n, hn, l, hl, rfl⟩
      obtain ⟨h1, h2⟩ := (mem_countLists k (N - n) l).mp hl
      simp only [List.length_cons, List.sum_cons]; omega
    · rintro ⟨h1, h2⟩
      match ns, h1, h2 with
      | n :: l, h1, h2 =>
        simp only [List.length_cons, List.sum_cons] at h1 h2
        exact ⟨n, by omega, l, (mem_countLists k (N - n) l).mpr ⟨by omega, by omega⟩, rfl⟩

theorem pmf_total : ∀ (ps : List ℝ) (N : ℕ), ((countLists ps.length N).map (pmf ps)).sum = ps.sum ^ N
  | [], N => by
    rw [List.length_nil, countLists]
    by_cases h : N = 0
    · subst h; simp [pmf, ways]
    · simp [h]
  | p :: ps, N => by
    have sfm : ∀ (f : ℕ → List ℝ) (l : List ℕ), (l.flatMap f).sum = (l.map fun a => (f a).sum).sum := by
      intro f l
      induction l with
      | nil => rfl
      | cons a l ih => simp [ih]
    rw [List.length_cons, countLists, List.map_flatMap, sfm]
    have : ∀ n ∈ List.range (N + 1), (((countLists ps.length (N - n)).map (n :: ·)).map (pmf (p :: ps))).sum = (N.choose n : ℝ) * (p ^ n * ps.sum ^ (N - n)) := by
      intro n hn
      have hn' : n ≤ N := by simpa using Nat.lt_succ_iff.mp (List.mem_range.mp hn)
      rw [← pmf_total ps (N - n), List.map_map, ← List.sum_map_mul_left, ← List.sum_map_mul_left]
      congr 1
      apply List.map_congr_left
      intro ns hns
      obtain ⟨-, h2⟩ := (mem_countLists _ _ ns).mp hns
      simp only [Function.comp, pmf, ways, List.zipWith_cons_cons, List.prod_cons]
      rw [h2, show n + (N - n) = N by omega]
      push_cast; ring
    rw [List.map_congr_left this, List.sum_cons, ← sum_prod_choose]
    rfl

/-- C146: those probabilities are nonnegative and sum to one over all possible rows of N draws. -/
theorem C146_distribution (ps : List ℝ) (hs : ps.sum = 1) (hp : ∀ p ∈ ps, 0 ≤ p) (N : ℕ) :
    (∀ ns, 0 ≤ pmf ps ns) ∧ ((countLists ps.length N).map (pmf ps)).sum = 1 ∧ ∀ ns, ns ∈ countLists ps.length N ↔ ns.length = ps.length ∧ ns.sum = N := by
  refine ⟨?_, by rw [pmf_total, hs, one_pow], mem_countLists _ _⟩
  intro ns
  unfold pmf
  apply mul_nonneg (Nat.cast_nonneg _)
  apply List.prod_nonneg
  intro x hx
  rw [List.mem_iff_getElem] at hx
  obtain ⟨i, hi, rfl⟩ := hx
  simp only [List.getElem_zipWith]
  exact pow_nonneg (hp _ (List.getElem_mem _)) _

/-- C146 (refuted): that n = 2 is treated like any other: with three bins all but one of them are ignored. -/
theorem C146_two_draws_refuted : ∃ (row : List ℕ), row.sum = 2 ∧ row.length = 3 ∧
    ll [2, 1 / 3, 1 / 3] [row] = .ok (some (elog (4 / 9)), [2, 1 / 3, 1 / 3]) ∧ pmf [1 / 3, 1 / 3, 1 / 3] row = 2 / 9 := by
  refine ⟨[1, 0, 1], rfl, rfl, ?_, ?_⟩
  · unfold ll
    simp only [if_true]
    rw [if_pos (by norm_num)]
    simp only [sumRows, binRow, rd, List.getElem?_cons_succ, List.getElem?_cons_zero, Res.bind]
    rw [fin0, ← elog_mul]
    simp only [binPmf]
    norm_num [toP]
  · simp [pmf, ways]; norm_num

/-- C146 (refuted): that a row's total is compared with n: it counts for whatever its total is. -/
theorem C146_total_refuted : ll [5, 1 / 2] [[1, 1]] = .ok (some (elog (1 / 2)), [5, 1 / 2]) := by
  rw [C146_ll 5 (1 / 2) [] (by norm_num) (by norm_num) _ (by simp)]
  simp [pmf, ways]; norm_num

/-- C146 (refuted): that rows of too few bins are refused: the row is read past its end. -/
theorem C146_short_row_refuted (n p1 p2 : ℝ) (hn : n ≠ 2) (hp : p1 ≤ 1) (a b : ℕ) : ll [n, p1, p2] [[a, b]] = .ub := by
  unfold ll
  simp only [if_neg hn, if_pos hp]
  simp [sumRows, lnpdf, toP, lnLoop, Res.bind]

/-- Three bins, one row. -/
example : ll [3, 1 / 2, 1 / 4] [[1, 1, 1]] = .ok (some (elog (3 / 16)), [3, 1 / 2, 1 / 4]) := by
  rw [C146_ll 3 (1 / 2) [1 / 4] (by norm_num) (by norm_num) _ (by simp)]
  simp [pmf, ways]; norm_num

end Apop.Dist.Multinomial
