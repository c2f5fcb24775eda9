import Mathlib.Data.List.GetD
import Verif.Base.C
import Mathlib.Analysis.SpecialFunctions.Log.Basic
import Mathlib.Algebra.Order.BigOperators.Group.Finset
import Mathlib.Algebra.BigOperators.Field
import Mathlib.Tactic.Positivity
import Mathlib.Tactic.FieldSimp
import Mathlib.Tactic.Linarith

/-! # C81: mixtures of models -/

namespace Apop.Mix
open Real

/-! ## The models -/

/-- `gsl_vector_max` (GSL) of a vector that is not empty. -/
noncomputable def vmax : List ℝ → ℝ
  | [] => 0
  | x :: l => l.foldl max x

/-- `sum_exp_vector`, transform/apop_mixture.c:222-228. -/
noncomputable def sumExp (row : List ℝ) : ℝ := (row.map fun x => exp (x - vmax row)).sum * exp (vmax row)

/-- `mixture_log_likelihood`, transform/apop_mixture.c:255-260: the odds of each component for one observation, which replace the row. -/
noncomputable def odds (row : List ℝ) : List ℝ := row.map fun x => 1 / sumExp (row.map fun y => y + -x)

/-- `mixture_log_likelihood`, lines 238-241: the weights are added to the log likelihoods of the components. -/
noncomputable def reweight (w : List ℝ) (lls : List (List ℝ)) : List (List ℝ) := lls.map fun row => List.zipWith (· + ·) row w

/-- `mixture_log_likelihood`, transform/apop_mixture.c:230-276, for the grid of log likelihoods of each observation under each component: the value returned; -/
noncomputable def mixLl (w : List ℝ) (lls : List (List ℝ)) : ℝ := ((reweight w lls).map vmax).sum

/-- and the weights for the next step, lines 270-274. -/
noncomputable def nextWeights (w : List ℝ) (lls : List (List ℝ)) : List ℝ :=
  (List.range w.length).map fun i => (((reweight w lls).map odds).map fun row => row.getD i 0).sum / lls.length

/-- `mixture_cdf`, transform/apop_mixture.c:293-300, with `weighted_sum`, lines 190-195; `cdfs` are the components' values. -/
noncomputable def mixCdf (w cdfs : List ℝ) : ℝ := (List.zipWith (fun c wi => c * wi / w.sum) cdfs w).sum

/-- `mixture_prep`, transform/apop_mixture.c:159-169: all parameters in one vector, and the sizes of the components'. -/
def prep (w : List ℝ) (comps : List (List ℝ)) : List ℝ × List ℕ := (w ++ comps.flatten, comps.map List.length)

/-- `gsl_vector_subvector` (GSL): a part of a vector; out of range is an error. -/
def subvec (v : List ℝ) (off n : ℕ) : Res (List ℝ) := if off + n ≤ v.length then .ok ((v.drop off).take n) else .ub

/-- `unpack`, transform/apop_mixture.c:182-187: the loop over the components. A component without parameters does not advance `i` (line 183), so its successors look at its size, too. -/
def unpackLoop (params : List ℝ) (sizes : List ℕ) : ℕ → ℕ → List (List ℝ) → Res (List (List ℝ))
  | _, _, [] => .ok []
  | i, posn, c :: cs => do
    let n ← rd sizes i
    if n = 0 then .ok (c :: (← unpackLoop params sizes i posn cs))
    else do
      let c' ← subvec params posn n
      .ok (c' :: (← unpackLoop params sizes (i + 1) (posn + n) cs))

/-- `unpack`, transform/apop_mixture.c:174-188. -/
def unpack (params w : List ℝ) (sizes : List ℕ) (comps : List (List ℝ)) : Res (List (List ℝ)) := unpackLoop params sizes 0 w.length comps

/-- `mixture_constraint`, transform/apop_mixture.c:309-317: the components' parameters, moved by their constraints, are written back to the vector, from position zero. -/
def packBack (sizes : List ℕ) : ℕ → ℕ → List (List ℝ) → List ℝ → Res (List ℝ)
  | _, _, [], params => .ok params
  | i, posn, c :: cs, params => do
    let n ← rd sizes i
    if n = 0 then packBack sizes i posn cs params
    else if posn + n ≤ params.length then packBack sizes (i + 1) (posn + n) cs (params.take posn ++ c ++ params.drop (posn + n))
    else .ub

/-! ## Proofs -/

theorem foldl_max_ge (l : List ℝ) (x : ℝ) : x ≤ l.foldl max x ∧ ∀ y ∈ l, y ≤ l.foldl max x := by
  induction l generalizing x with
  | nil => simp
  | cons a l ih =>
    obtain ⟨h1, h2⟩ := ih (max x a)
    refine ⟨(le_max_left _ _).trans h1, ?_⟩
    intro y hy
    rcases List.mem_cons.1 hy with rfl | hy
    · exact (le_max_right _ _).trans h1
    · exact h2 y hy

theorem foldl_max_mem (l : List ℝ) (x : ℝ) : l.foldl max x ∈ x :: l := by
  induction l generalizing x with
  | nil => simp
  | cons a l ih =>
    have := ih (max x a)
    simp only [List.foldl_cons]
    rcases List.mem_cons.1 this with h | h
    · rw [h]; rcases max_choice x a with h' | h' <;> rw [h'] <;> simp
    · simp [h]

theorem vmax_spec {row : List ℝ} (h : row ≠ []) : vmax row ∈ row ∧ ∀ x ∈ row, x ≤ vmax row := by
  cases row with
  | nil => exact absurd rfl h
  | cons x l =>
    refine ⟨foldl_max_mem l x, ?_⟩
    intro y hy
    rcases List.mem_cons.1 hy with rfl | hy
    · exact (foldl_max_ge l y).1
    · exact (foldl_max_ge l x).2 y hy

theorem sumExp_eq (row : List ℝ) : sumExp row = (row.map exp).sum := by
  rw [sumExp, ← List.sum_map_mul_right]
  congr 1
  apply List.map_congr_left
  intro x _
  rw [← exp_add]; congr 1; ring

theorem sum_exp_pos {row : List ℝ} (h : row ≠ []) : 0 < (row.map exp).sum := by
  apply List.sum_pos
  · intro x hx
    obtain ⟨y, -, rfl⟩ := List.mem_map.1 hx
    exact exp_pos y
  · simpa using h

/-- **C81 (odds).** For an observation with log weights-and-likelihoods `row`, the odds found for the components are exp(x) over the sum of all exp(x): they are positive and sum to one. -/
theorem C81_odds (row : List ℝ) (h : row ≠ []) : odds row = row.map (fun x => exp x / (row.map exp).sum) ∧ (∀ p ∈ odds row, 0 < p) ∧ (odds row).sum = 1 := by
  have hp := sum_exp_pos h
  have e : odds row = row.map (fun x => exp x / (row.map exp).sum) := by
    unfold odds
    apply List.map_congr_left
    intro x _
    rw [sumExp_eq, List.map_map]
    have : (row.map (exp ∘ fun y => y + -x)).sum = (row.map exp).sum * exp (-x) := by
      rw [← List.sum_map_mul_right]
      congr 1
      apply List.map_congr_left
      intro y _
      rw [← exp_add]; rfl
    rw [this, exp_neg]
    field_simp
  refine ⟨e, ?_, ?_⟩
  · intro p hpm
    rw [e] at hpm
    obtain ⟨x, -, rfl⟩ := List.mem_map.1 hpm
    positivity
  · rw [e]
    have : (row.map fun x => exp x / (row.map exp).sum) = row.map fun x => exp x * ((row.map exp).sum)⁻¹ := by simp [div_eq_mul_inv]
    rw [this, List.sum_map_mul_right, mul_inv_cancel₀ hp.ne']

theorem sum_range_getD (l : List ℝ) : ((List.range l.length).map fun i => l.getD i 0).sum = l.sum := by
  have : (List.range l.length).map (fun i => l.getD i 0) = l := by
    apply List.ext_getElem (by simp)
    intro i h1 h2
    simp at h1
    simp [h1]
  rw [this]

theorem sum_swap (l : List ℕ) (rows : List (List ℝ)) : (l.map fun i => (rows.map fun r => r.getD i 0).sum).sum = (rows.map fun r => (l.map fun i => r.getD i 0).sum).sum := by
  induction rows with
  | nil => simp
  | cons r rows ih =>
    simp only [List.map_cons, List.sum_cons, ← ih]
    induction l with
    | nil => simp
    | cons i l ih2 => simp only [List.map_cons, List.sum_cons]; rw [ih2 (by
        have : ∀ (l : List ℕ) (rows : List (List ℝ)), (l.map fun i => (rows.map fun r => r.getD i 0).sum).sum = (rows.map fun r => (l.map fun i => r.getD i 0).sum).sum := by
          intro l rows
          induction rows with
          | nil => simp
          | cons q qs ih => simp only [List.map_cons, List.sum_cons, ← ih]; induction l <;> simp_all [add_add_add_comm]
        exact this l rows)]; ring

theorem reweight_rows {w : List ℝ} {lls : List (List ℝ)} (hw : w ≠ []) (h : ∀ r ∈ lls, r.length = w.length) : ∀ r ∈ reweight w lls, r.length = w.length ∧ r ≠ [] := by
  intro r hr
  obtain ⟨q, hq, rfl⟩ := List.mem_map.1 hr
  have hl : (List.zipWith (· + ·) q w).length = w.length := by simp [h q hq]
  refine ⟨hl, ?_⟩
  intro h0
  rw [h0] at hl
  exact hw (List.length_eq_zero_iff.1 hl.symm)

/-- **C81 (weights).** For any data and component likelihoods, the weights found for the next step are positive and sum to one. -/
theorem C81_weights (w : List ℝ) (lls : List (List ℝ)) (hw : w ≠ []) (hn : lls ≠ []) (h : ∀ r ∈ lls, r.length = w.length) :
    (nextWeights w lls).length = w.length ∧ (∀ p ∈ nextWeights w lls, 0 < p) ∧ (nextWeights w lls).sum = 1 := by
  have hrows := reweight_rows hw h
  have hN : (0 : ℝ) < lls.length := by have := List.length_pos_iff.2 hn; exact_mod_cast this
  have hne : reweight w lls ≠ [] := by simpa [reweight] using hn
  refine ⟨by simp [nextWeights], ?_, ?_⟩
  · intro p hp
    obtain ⟨i, hi, rfl⟩ := List.mem_map.1 hp
    rw [List.mem_range] at hi
    apply div_pos _ hN
    apply List.sum_pos
    · intro x hx
      simp only [List.mem_map] at hx
      obtain ⟨o, ⟨r, hr, rfl⟩, rfl⟩ := hx
      have hl := (hrows r hr).1
      have hlo : i < (odds r).length := by simp [odds]; omega
      rw [List.getD_eq_getElem _ _ hlo]
      exact (C81_odds r (hrows r hr).2).2.1 _ (List.getElem_mem hlo)
    · simpa using hne
  · unfold nextWeights
    have : ((List.range w.length).map fun i => (((reweight w lls).map odds).map fun row => row.getD i 0).sum / (lls.length : ℝ)) =
        (List.range w.length).map fun i => (((reweight w lls).map odds).map fun row => row.getD i 0).sum * ((lls.length : ℝ))⁻¹ := by simp [div_eq_mul_inv]
    rw [this, List.sum_map_mul_right, sum_swap]
    have one : ((reweight w lls).map odds).map (fun r => ((List.range w.length).map fun i => r.getD i 0).sum) = List.replicate lls.length 1 := by
      apply List.eq_replicate_iff.2
      refine ⟨by simp [reweight], ?_⟩
      intro b hb
      simp only [List.mem_map] at hb
      obtain ⟨o, ⟨r, hr, rfl⟩, rfl⟩ := hb
      have hl : (odds r).length = w.length := by simp [odds, (hrows r hr).1]
      rw [← hl, sum_range_getD]
      exact (C81_odds r (hrows r hr).2).2.2
    rw [one, List.sum_replicate, nsmul_eq_mul, mul_one, mul_inv_cancel₀ hN.ne']

/-- **C81 (log likelihood).** The log likelihood returned is a sum with one term for each observation: the largest, over the components, of the component's log likelihood plus its weight. -/
theorem C81_loglik (w : List ℝ) (lls : List (List ℝ)) (hw : w ≠ []) (h : ∀ r ∈ lls, r.length = w.length) :
    ∃ terms : List ℝ, mixLl w lls = terms.sum ∧ List.Forall₂ (fun row t => (∃ i, ∃ hi : i < w.length, t = row.getD i 0 + w[i]) ∧ ∀ i, (hi : i < w.length) → row.getD i 0 + w[i] ≤ t) lls terms := by
  refine ⟨(reweight w lls).map vmax, rfl, ?_⟩
  induction lls with
  | nil => exact List.Forall₂.nil
  | cons row lls ih =>
    have hl := h row (by simp)
    refine List.Forall₂.cons ?_ (ih fun r hr => h r (by simp [hr]))
    have hne : List.zipWith (· + ·) row w ≠ [] := (reweight_rows (lls := [row]) hw (by simpa using hl) _ (by simp [reweight])).2
    obtain ⟨h1, h2⟩ := vmax_spec hne
    constructor
    · obtain ⟨i, hi, e⟩ := List.getElem_of_mem h1
      have hi' : i < w.length := by simp at hi; omega
      refine ⟨i, hi', ?_⟩
      show vmax (List.zipWith (· + ·) row w) = _
      rw [← e, List.getElem_zipWith, List.getD_eq_getElem _ _ (by omega)]
    · intro i hi
      apply h2
      rw [List.getD_eq_getElem _ _ (by omega)]
      have hi2 : i < (List.zipWith (· + ·) row w).length := by simp; omega
      have : (List.zipWith (· + ·) row w)[i] = row[i] + w[i] := List.getElem_zipWith
      rw [← this]
      exact List.getElem_mem hi2

/-- As documented each observation would count with its probability under the most likely component times that component's weight; the code adds the weight itself, not its log. A mixture of one model, of weight one, has one more for each observation than the model's own log likelihood. -/
theorem C81_loglik_refuted (ls : List ℝ) : mixLl [1] (ls.map fun l => [l]) = ls.sum + ls.length := by
  induction ls with
  | nil => simp [mixLl, reweight]
  | cons l ls ih =>
    simp only [mixLl, reweight, List.map_cons, List.sum_cons] at ih ⊢
    rw [ih]
    simp only [List.zipWith_cons_cons, List.zipWith_nil_left, vmax, List.foldl_nil, List.length_cons]
    push_cast
    ring

theorem mixCdf_eq (w cdfs : List ℝ) : mixCdf w cdfs = (List.zipWith (fun c wi => c * wi) cdfs w).sum / w.sum := by
  unfold mixCdf
  have gen : ∀ (k : ℝ) (cdfs w : List ℝ), (List.zipWith (fun c wi => c * wi / k) cdfs w).sum = (List.zipWith (fun c wi => c * wi) cdfs w).sum / k := by
    intro k cdfs
    induction cdfs with
    | nil => simp
    | cons c cs ih => intro w; cases w with
      | nil => simp
      | cons a w => simp only [List.zipWith_cons_cons, List.sum_cons, ih]; ring
  exact gen _ _ _

theorem zip_mono : ∀ (cs cs' w : List ℝ), (∀ x ∈ w, 0 ≤ x) → List.Forall₂ (· ≤ ·) cs cs' → (List.zipWith (fun c wi => c * wi) cs w).sum ≤ (List.zipWith (fun c wi => c * wi) cs' w).sum
  | _, _, w, _, .nil => by simp
  | c :: cs, c' :: cs', [], _, _ => by simp
  | c :: cs, c' :: cs', a :: w, hw, .cons h1 h2 => by
    simp only [List.zipWith_cons_cons, List.sum_cons]
    exact add_le_add (mul_le_mul_of_nonneg_right h1 (hw a (by simp))) (zip_mono cs cs' w (fun x hx => hw x (by simp [hx])) h2)

theorem zip_const (k : ℝ) : ∀ (n : ℕ) (w : List ℝ), w.length = n → (List.zipWith (fun c wi => c * wi) (List.replicate n k) w).sum = k * w.sum
  | 0, w, h => by rw [List.length_eq_zero_iff] at h; simp [h]
  | n + 1, a :: w, h => by
    simp only [List.replicate_succ, List.zipWith_cons_cons, List.sum_cons, zip_const k n w (by simpa using h)]; ring

/-- **C81 (CDF).** With weights not negative and not all zero, on any scale: if every component's value is between zero and one so is the mixture's; if every component's value grows from one point to another so does the mixture's; and the mixture of components that agree is their common value. -/
theorem C81_cdf (w : List ℝ) (hw : ∀ x ∈ w, 0 ≤ x) (hs : 0 < w.sum) :
    (∀ cs, cs.length = w.length → (∀ c ∈ cs, 0 ≤ c ∧ c ≤ 1) → 0 ≤ mixCdf w cs ∧ mixCdf w cs ≤ 1) ∧
    (∀ cs cs', List.Forall₂ (· ≤ ·) cs cs' → mixCdf w cs ≤ mixCdf w cs') ∧
    ∀ k, mixCdf w (List.replicate w.length k) = k := by
  have hmono : ∀ cs cs', List.Forall₂ (· ≤ ·) cs cs' → mixCdf w cs ≤ mixCdf w cs' := by
    intro cs cs' h
    rw [mixCdf_eq, mixCdf_eq]
    exact div_le_div_of_nonneg_right (zip_mono cs cs' w hw h) hs.le
  have hconst : ∀ k, mixCdf w (List.replicate w.length k) = k := by
    intro k
    rw [mixCdf_eq, zip_const k _ w rfl]
    field_simp
  refine ⟨?_, hmono, hconst⟩
  intro cs hl hc
  have f : ∀ (cs : List ℝ), (∀ c ∈ cs, 0 ≤ c ∧ c ≤ 1) → List.Forall₂ (· ≤ ·) (List.replicate cs.length 0) cs ∧ List.Forall₂ (· ≤ ·) cs (List.replicate cs.length 1) := by
    intro cs
    induction cs with
    | nil => intro _; exact ⟨List.Forall₂.nil, List.Forall₂.nil⟩
    | cons c cs ih =>
      intro h
      have h0 := h c (by simp)
      obtain ⟨a, b⟩ := ih fun c hc => h c (by simp [hc])
      exact ⟨List.Forall₂.cons h0.1 a, List.Forall₂.cons h0.2 b⟩
  obtain ⟨a, b⟩ := f cs hc
  rw [hl] at a b
  have h0 := hmono _ _ a
  have h1 := hmono _ _ b
  rw [hconst] at h0 h1
  exact ⟨h0, h1⟩

/-! ### The vector of parameters -/

theorem unpackLoop_eq (sizes : List ℕ) : ∀ (comps vals : List (List ℝ)) (pre : List ℝ) (done : List ℕ) (post : List ℝ), comps.length = vals.length → sizes = done ++ vals.map List.length → (∀ v ∈ vals, v ≠ []) →
    unpackLoop (pre ++ vals.flatten ++ post) sizes done.length pre.length comps = .ok vals
  | [], [], pre, done, post, _, _, _ => rfl
  | c :: cs, v :: vs, pre, done, post, hl, hs, hv => by
    have hv0 := hv v (by simp)
    have hlen : v.length ≠ 0 := by rwa [ne_eq, List.length_eq_zero_iff]
    have hrd : rd sizes done.length = .ok v.length := by rw [rd_eq_ok, hs]; simp
    have hsub : subvec (pre ++ (v :: vs).flatten ++ post) pre.length v.length = .ok v := by
      unfold subvec
      rw [if_pos (by simp), List.append_assoc, List.drop_left, List.flatten_cons, List.append_assoc, List.take_left]
    have ih := unpackLoop_eq sizes cs vs (pre ++ v) (done ++ [v.length]) post (by simpa using hl) (by simp [hs]) (fun x hx => hv x (by simp [hx]))
    simp only [List.length_append, List.length_singleton, List.append_assoc] at ih
    simp only [unpackLoop, hrd, Res.bind_ok, if_neg hlen, hsub]
    simp only [List.flatten_cons, List.append_assoc]
    rw [ih]
    rfl

/-- **C81 (parameters).** If every component has parameters: after the mixture's vector is set to weights and values, of the components' sizes, evaluating the mixture gives each component exactly its own values. -/
theorem C81_unpack (w : List ℝ) (comps vals : List (List ℝ)) (h : comps.map List.length = vals.map List.length) (hv : ∀ v ∈ vals, v ≠ []) (w' : List ℝ) (hw : w'.length = w.length) :
    unpack (w' ++ vals.flatten) w (prep w comps).2 comps = .ok vals := by
  have hl : comps.length = vals.length := by have := congrArg List.length h; simpa using this
  have := unpackLoop_eq (comps.map List.length) comps vals w' [] [] hl (by simp [h]) hv
  rw [unpack, prep, ← hw]
  simpa using this

/-- A component without parameters (a PMF) before others: their values are not passed on. -/
theorem C81_unpack_refuted : unpack ([1, 1] ++ [7]) [1, 1] (prep [1, 1] [[], [5]]).2 [[], [5]] = .ok [[], [5]] := by
  simp [unpack, unpackLoop, prep, rd]

/-- The constraint check writes the components' parameters over the weights. -/
theorem C81_constraint_refuted : packBack (prep [1] [[5]]).2 0 0 [[6]] (prep [1] [[5]]).1 = .ok [6, 5] := by
  simp [packBack, prep, rd]

/-! Cases that meet the hypotheses. -/

example : nextWeights [0, 0] [[0, 0], [0, 0]] = [1 / 2, 1 / 2] := by
  norm_num [nextWeights, reweight, odds, sumExp, vmax, List.range, List.range.loop]

example : mixCdf [1, 3] [0, 1] = 3 / 4 ∧ unpack [9, 9, 1, 2, 3] [1, 3] (prep [1, 3] [[0], [0, 0]]).2 [[0], [0, 0]] = .ok [[1], [2, 3]] := by
  constructor
  · norm_num [mixCdf]
  · exact C81_unpack [1, 3] [[0], [0, 0]] [[1], [2, 3]] rfl (by simp) [9, 9] rfl

end Apop.Mix
