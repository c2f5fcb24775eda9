import Verif.Fisher.F4Exact
import Verif.Fisher.F3Claims
import Verif.Fisher.PValue

/-! # C195: the shortest path; C185 with the code's bounds -/

namespace Apop.Fisher.F3
open Apop Apop.Fisher Finset

theorem lf_sum_le {ι : Type} (s : Finset ι) (f : ι → ℕ) : ∑ i ∈ s, lf (f i) ≤ lf (∑ i ∈ s, f i) := by
  classical
  induction s using Finset.induction_on with
  | empty => simp [lf_zero]
  | insert a s ha ih =>
    rw [sum_insert ha, sum_insert ha]
    have := lf_super (f a) (∑ i ∈ s, f i)
    linarith

theorem lf_nn (n : ℕ) : 0 ≤ lf n := by
  have := gain_nonneg 0 n
  have h := lf_incr (Nat.zero_le 0) n
  unfold lf
  exact Real.log_nonneg (by exact_mod_cast n.factorial_pos)

theorem cellSum_nonneg {r c : ℕ} (T : Table r c) : 0 ≤ cellSum T := sum_nonneg (fun _ _ => sum_nonneg (fun _ _ => lf_nn _))

theorem cellSum_le_cols {r c : ℕ} (T : Table r c) : cellSum T ≤ ∑ j, lf (colTot T j) := by
  unfold cellSum
  rw [sum_comm]
  exact sum_le_sum (fun j _ => lf_sum_le univ (fun i => T i j))

theorem tab_le_cols {r c : List ℕ} {q : ℝ} (h : Tab r c q) : q ≤ (c.map lf).sum := by
  obtain ⟨n, m, T, h1, h2, rfl⟩ := h
  rw [← (h2.map lf).sum_eq, sum_ofFn_map]
  exact cellSum_le_cols T

theorem factC_map (cols : List ℕ) : (cols.map factC).sum = (cols.map lf).sum := by
  rw [show factC = lf from funext factC_eq]

theorem rest_two {a b c d : ℕ} {q : ℝ} (hcd : c ≤ d) (hbd : b ≤ d) (h : Rest b d [a] [c] q) : q ≤ lf d + lf (d - b) := by
  have hc : lf c ≤ lf d := by
    have := gain_nonneg c (d - c)
    unfold gain at this
    rw [show c + (d - c) = d by omega] at this
    have := lf_nn (d - c)
    linarith
  have h0 := lf_nn (d - b)
  unfold Rest at h
  split at h
  · have := tab_one h
    simp at this; linarith
  · rw [if_neg (by omega)] at h
    have := tab_one h
    simp at this; linarith

theorem two_max {a b c d : ℕ} (hab : a ≤ b) (hcd : c ≤ d) (hbd : b ≤ d) {q : ℝ} (h : Tab [a, b] [c, d] q) :
    q ≤ lf b + (lf d + lf (d - b)) := by
  have h1 : Tab (a :: [b]) (d :: [c]) q := h.perm (List.Perm.refl _) (List.Perm.swap _ _ _)
  obtain ⟨x, hx, q', h2, h3⟩ := tab_peelK h1 (by simp) (by simp; omega) (by simpa using hab)
  have hxb : x = b := by simpa using hx
  subst hxb
  rw [Nat.min_eq_left hbd] at h3
  have hp : ((a :: [x]).erase x).Perm [a] := by
    have e : (a :: [x]).Perm (x :: [a]) := List.Perm.swap _ _ _
    have := e.erase x
    rwa [List.erase_cons_head] at this
  have := rest_two hcd hbd (h2.perm hp (List.Perm.refl _))
  linarith

theorem f4xact_shape {fact : Fact} {D : ℝ} {rl cl : List ℕ} (h1 : 2 ≤ rl.length) (h2 : 2 ≤ cl.length) (h : 4 < rl.length * cl.length) :
    f4xact fact D rl cl = result D (dfs fact D (rl.length + cl.length) rl.reverse cl.reverse 0 0) := by
  match rl, cl, h1, h2, h with
  | [], _, h1, _, _ => simp at h1
  | [_], _, h1, _, _ => simp at h1
  | _ :: _ :: _, [], _, h2, _ => simp at h2
  | _ :: _ :: _, [_], _, h2, _ => simp at h2
  | [_, _], [_, _], _, _, h => simp at h
  | _ :: _ :: _ :: _, [_, _], _, _, _ => rfl
  | _ :: _ :: _ :: _, _ :: _ :: _ :: _, _, _, _ => rfl
  | [_, _], _ :: _ :: _ :: _, _, _, _ => rfl

theorem main_spec {fact : Fact} (hf : FactOK fact) {n : ℕ} {rows cols : List ℕ} (hr : rows.Pairwise (· ≤ ·)) (hc : cols.Pairwise (· ≤ ·))
    (hr1 : 2 ≤ rows.length) (hc1 : 2 ≤ cols.length) {v q : ℝ} (hq : Tab rows cols q)
    (h : result (cols.map factC).sum (dfs fact (cols.map factC).sum n rows.reverse cols.reverse 0 0) = .ok v) : v ≤ -q := by
  have hq1 := tab_le_cols hq
  rw [← factC_map] at hq1
  cases hd : dfs fact (cols.map factC).sum n rows.reverse cols.reverse 0 0 with
  | ub => rw [hd] at h; cases h
  | stop => rw [hd] at h; simp only [result, Net.ok.injEq] at h; linarith
  | run a =>
    rw [hd] at h
    have := (dfs_spec hf _ n _ _ _ _ _ hd).2 (by rw [List.pairwise_reverse]; exact hr) (by rw [List.pairwise_reverse]; exact hc)
      (by simpa using hr1) (by simpa using hc1) q (hq.perm (List.reverse_perm _).symm (List.reverse_perm _).symm)
    simp only [result] at h
    split at h
    · simp only [Net.ok.injEq] at h; linarith
    · simp only [Net.ok.injEq] at h; linarith

theorem f4_tab {fact : Fact} (hf : FactOK fact) {rows cols : List ℕ} (hr : rows.Pairwise (· ≤ ·)) (hc : cols.Pairwise (· ≤ ·))
    {v q : ℝ} (hq : Tab rows cols q) (h : f4 fact rows cols = .ok v) : v ≤ -q := by
  match rows, cols, hr, hc, hq, h with
  | [], _, _, _, _, h => cases h
  | [_], cols, _, _, hq, h =>
    obtain ⟨w, hw, rfl⟩ := neg_inv h
    rw [sumFact_spec hf hw, tab_one hq]
  | _ :: _ :: _, [], _, _, _, h => cases h
  | a :: b :: r, [z], _, _, hq, h =>
    obtain ⟨w, hw, rfl⟩ := neg_inv h
    rw [sumFact_spec hf hw, tab_one hq.flip]
  | [a, b], [c, d], hr, hc, hq, h =>
    have hab : a ≤ b := by simpa using hr
    have hcd : c ≤ d := by simpa using hc
    simp only [f4, f4xact] at h
    split at h
    · rename_i hle
      obtain ⟨w, hw, rfl⟩ := neg_inv h
      have := two_max hab hcd hle hq
      rw [sumFact_spec hf hw]; simp; linarith
    · rename_i hle
      obtain ⟨w, hw, rfl⟩ := neg_inv h
      have := two_max hcd hab (by omega) hq.flip
      rw [sumFact_spec hf hw]; simp; linarith
  | a :: b :: e :: r, c :: d :: l, hr, hc, hq, h =>
    unfold f4 at h
    rw [f4xact_shape (by simp) (by simp) (by simp only [List.length_cons]; nlinarith)] at h
    exact main_spec hf hr hc (by simp) (by simp) hq h
  | [a, b], c :: d :: e :: l, hr, hc, hq, h =>
    unfold f4 at h
    rw [f4xact_shape (by simp) (by simp) (by simp only [List.length_cons]; nlinarith)] at h
    exact main_spec hf hr hc (by simp) (by simp) hq h

theorem tab_of {r c : ℕ} (Y : Table r c) : Tab (List.ofFn (rowTot Y)) (List.ofFn (colTot Y)) (∑ i, ∑ j, lf (Y i j)) :=
  ⟨r, c, Y, List.Perm.refl _, List.Perm.refl _, rfl⟩

/-- **C195.** The value that f4xact returns is at most minus the sum of the logs of the
factorials of the cells, for every table with these margins. -/
theorem C195_shortest_path {fact : Fact} (hf : FactOK fact) {r c : ℕ} (Y : Table r c)
    (hR : (List.ofFn (rowTot Y)).Pairwise (· ≤ ·)) (hC : (List.ofFn (colTot Y)).Pairwise (· ≤ ·)) {v : ℝ}
    (h : f4 fact (List.ofFn (rowTot Y)) (List.ofFn (colTot Y)) = .ok v) : v ≤ -(∑ i, ∑ j, lf (Y i j)) :=
  f4_tab hf hR hC (tab_of Y) h

open Classical in
/-- **C195.** If the table is larger than 2 by 2, `Y` is a least probable table with these
margins, and `D` is the sum of the logs of the factorials of the column totals, then
f4xact returns minus the sum of the logs of the factorials of the cells of `Y`, or
`-D` if twice that sum is at least `D`. -/
theorem C195_value {fact : Fact} (hf : FactOK fact) {r c : ℕ} (hr : 2 ≤ r) (hc : 2 ≤ c) (hrc : 4 < r * c) (Y : Table r c)
    (hmax : ∀ T : Table r c, rowTot T = rowTot Y → colTot T = colTot Y → ∑ i, ∑ j, lf (T i j) ≤ ∑ i, ∑ j, lf (Y i j))
    (hR : (List.ofFn (rowTot Y)).Pairwise (· ≤ ·)) (hC : (List.ofFn (colTot Y)).Pairwise (· ≤ ·)) {v : ℝ}
    (h : f4 fact (List.ofFn (rowTot Y)) (List.ofFn (colTot Y)) = .ok v) :
    v = if ∑ j, lf (colTot Y j) ≤ 2 * ∑ i, ∑ j, lf (Y i j) + tolC then -∑ j, lf (colTot Y j) else -(∑ i, ∑ j, lf (Y i j)) := by
  have hM : ∀ q, Tab (List.ofFn (rowTot Y)) (List.ofFn (colTot Y)) q → q ≤ cellSum Y := by
    rintro q ⟨n, m, T, h1, h2, rfl⟩
    have hn : n = r := by have := h1.length_eq; simpa using this
    have hm : m = c := by have := h2.length_eq; simpa using this
    subst hn hm
    obtain ⟨σ, hσ⟩ : ∃ σ : Equiv.Perm (Fin n), rowTot T ∘ σ = rowTot Y := by
      refine ⟨Tuple.sort (rowTot T), List.ofFn_injective ?_⟩
      refine List.Perm.eq_of_pairwise (le := (· ≤ ·)) (fun a b _ _ h1 h2 => le_antisymm h1 h2) ?_ hR (((Tuple.sort (rowTot T)).ofFn_comp_perm _).trans h1)
      rw [List.pairwise_ofFn]
      exact fun i j hij => Tuple.monotone_sort (rowTot T) hij.le
    obtain ⟨τ, hτ⟩ : ∃ τ : Equiv.Perm (Fin m), colTot T ∘ τ = colTot Y := by
      refine ⟨Tuple.sort (colTot T), List.ofFn_injective ?_⟩
      refine List.Perm.eq_of_pairwise (le := (· ≤ ·)) (fun a b _ _ h1 h2 => le_antisymm h1 h2) ?_ hC (((Tuple.sort (colTot T)).ofFn_comp_perm _).trans h2)
      rw [List.pairwise_ofFn]
      exact fun i j hij => Tuple.monotone_sort (colTot T) hij.le
    have := hmax (fun i j => T (σ i) (τ j)) (by
      rw [← hσ]; funext i; unfold rowTot; exact Equiv.sum_comp τ (fun j => T (σ i) j)) (by
      rw [← hτ]; funext j; unfold colTot; exact Equiv.sum_comp σ (fun i => T i (τ j)))
    refine le_trans (le_of_eq ?_) this
    unfold cellSum
    rw [← Equiv.sum_comp σ (fun i => ∑ j, lf (T i j))]
    exact sum_congr rfl (fun i _ => (Equiv.sum_comp τ (fun j => lf (T (σ i) j))).symm)
  have hD : ((List.ofFn (colTot Y)).map factC).sum = ∑ j, lf (colTot Y j) := by rw [factC_map, sum_ofFn_map]
  have hform : f4 fact (List.ofFn (rowTot Y)) (List.ofFn (colTot Y)) = result (∑ j, lf (colTot Y j))
      (dfs fact (∑ j, lf (colTot Y j)) (r + c) (List.ofFn (rowTot Y)).reverse (List.ofFn (colTot Y)).reverse 0 0) := by
    unfold f4
    rw [hD]
    have := f4xact_shape (fact := fact) (D := ∑ j, lf (colTot Y j)) (rl := List.ofFn (rowTot Y)) (cl := List.ofFn (colTot Y))
      (by simpa using hr) (by simpa using hc) (by simpa using hrc)
    simpa using this
  rw [hform] at h
  have hY := tab_of Y
  have hYY : Tab (List.ofFn (rowTot Y)).reverse (List.ofFn (colTot Y)).reverse (cellSum Y) :=
    hY.perm (List.reverse_perm _).symm (List.reverse_perm _).symm
  have h0 := cellSum_nonneg Y
  have hsum : (List.ofFn (rowTot Y)).reverse.sum = (List.ofFn (colTot Y)).reverse.sum := by
    rw [List.sum_reverse, List.sum_reverse, List.sum_ofFn, List.sum_ofFn, sum_margins]
  have hs := dfs_sound hf (∑ j, lf (colTot Y j)) (r + c) (List.ofFn (rowTot Y)).reverse (List.ofFn (colTot Y)).reverse 0 0 hsum
    (by simpa using hr) (by simpa using hc)
  have hback : ∀ q, Tab (List.ofFn (rowTot Y)).reverse (List.ofFn (colTot Y)).reverse q → q ≤ cellSum Y :=
    fun q hq => hM q (hq.perm (List.reverse_perm _) (List.reverse_perm _))
  change v = if _ ≤ 2 * cellSum Y + tolC then _ else -cellSum Y
  cases hd : dfs fact (∑ j, lf (colTot Y j)) (r + c) (List.ofFn (rowTot Y)).reverse (List.ofFn (colTot Y)).reverse 0 0 with
  | ub => rw [hd] at h; cases h
  | stop =>
    rw [hd] at h hs
    obtain ⟨q, hq, hle⟩ := hs
    have := hback q hq
    simp only [result, Net.ok.injEq] at h
    rw [if_pos (by linarith), h]
  | run a =>
    rw [hd] at h hs
    have hge := (dfs_spec hf _ _ _ _ _ _ _ hd).2 (by rw [List.pairwise_reverse]; exact hR) (by rw [List.pairwise_reverse]; exact hC)
      (by simpa using hr) (by simpa using hc) _ hYY
    have ha : a = cellSum Y := by
      refine le_antisymm ?_ (by linarith)
      rcases hs with e | ⟨q, hq, e⟩
      · linarith
      · have := hback q hq; linarith
    subst ha
    simp only [result] at h
    split at h
    · rename_i hle
      simp only [Net.ok.injEq] at h
      rw [if_pos (by linarith), h]
    · rename_i hle
      simp only [Net.ok.injEq] at h
      rw [if_neg (fun hn => hle (by linarith)), ← h]; ring

/-- **C195.** f4xact always returns a number, and reads the array of log factorials only
within its bounds, if no total is larger than the number of units. -/
theorem C195_shortest_path_returns {N : ℕ} {rows cols : List ℕ} (hr0 : rows ≠ []) (hc0 : cols ≠ []) (hr : ∀ x ∈ rows, x ≤ N)
    (hc : ∀ x ∈ cols, x ≤ N) : ∃ v, f4 (factArr N) rows cols = .ok v := by
  have hmain : 2 ≤ rows.length → 2 ≤ cols.length →
      ∃ v, result (cols.map factC).sum (dfs (factArr N) (cols.map factC).sum (rows.length + cols.length) rows.reverse cols.reverse 0 0) = .ok v := by
    intro l1 l2
    have := dfs_ne (N := N) (cols.map factC).sum (rows.length + cols.length) rows.reverse cols.reverse 0 0 (by simpa using hr) (by simpa using hc)
      (by simpa using l1) (by simpa using l2) (by simp)
    cases hd : dfs (factArr N) (cols.map factC).sum (rows.length + cols.length) rows.reverse cols.reverse 0 0 with
    | ub => exact absurd hd this
    | stop => exact ⟨_, rfl⟩
    | run a =>
      simp only [result]
      split
      · exact ⟨_, rfl⟩
      · exact ⟨_, rfl⟩
  match rows, cols, hr0, hc0, hr, hc, hmain with
  | [], _, hr0, _, _, _, _ => exact absurd rfl hr0
  | [_], cols, _, _, _, hc, _ =>
    obtain ⟨s, hs⟩ := sumFact_arr hc
    exact ⟨-s, by simp only [f4, f4xact, hs]; rfl⟩
  | _ :: _ :: _, [], _, hc0, _, _, _ => exact absurd rfl hc0
  | a :: b :: r, [z], _, _, hr, _, _ =>
    obtain ⟨s, hs⟩ := sumFact_arr hr
    exact ⟨-s, by simp only [f4, f4xact, hs]; rfl⟩
  | [a, b], [c, d], _, _, hr, hc, _ =>
    simp only [List.mem_cons, List.not_mem_nil, or_false, forall_eq_or_imp, forall_eq] at hr hc
    simp only [f4, f4xact]
    split
    · obtain ⟨s, hs⟩ := sumFact_arr (N := N) (l := [b, d, d - b]) (by simp; omega)
      exact ⟨-s, by rw [hs]; rfl⟩
    · obtain ⟨s, hs⟩ := sumFact_arr (N := N) (l := [d, b, b - d]) (by simp; omega)
      exact ⟨-s, by rw [hs]; rfl⟩
  | a :: b :: e :: r, c :: d :: l, _, _, _, _, hmain =>
    unfold f4
    rw [f4xact_shape (by simp) (by simp) (by simp only [List.length_cons]; nlinarith)]
    exact hmain (by simp) (by simp)
  | [a, b], c :: d :: e :: l, _, _, _, _, hmain =>
    unfold f4
    rw [f4xact_shape (by simp) (by simp) (by simp only [List.length_cons]; nlinarith)]
    exact hmain (by simp) (by simp)

/-- **C195.** For two rows and two columns the value is not the length of a path: with
totals 1 and 2 the only tables have a cell of two units and a cell of one, or three
of one. -/
theorem C195_two_by_two_refuted : f4 (factArr 3) [1, 2] [1, 2] = .ok (-(Real.log 2 + Real.log 2))
    ∧ ∀ Y : Table 2 2, List.ofFn (rowTot Y) = [1, 2] → List.ofFn (colTot Y) = [1, 2] →
      -(Real.log 2 + Real.log 2) < -(∑ i, ∑ j, lf (Y i j)) := by
  have hl : 0 < Real.log 2 := Real.log_pos (by norm_num)
  constructor
  · unfold f4 f4xact
    simp only [if_pos (le_refl 2)]
    have : sumFact (factArr 3) ([2, 2, 2 - 2].map (fun x : ℕ => (x : ℤ))) = .ok (Real.log 2 + Real.log 2) := by
      simp [sumFact, factArr, factC]
    rw [this]; rfl
  · intro Y h1 h2
    have e1 : rowTot Y 0 = 1 ∧ rowTot Y 1 = 2 := by simpa using h1
    have e2 : colTot Y 0 = 1 ∧ colTot Y 1 = 2 := by simpa using h2
    unfold rowTot at e1
    unfold colTot at e2
    simp only [Fin.sum_univ_two] at e1 e2 ⊢
    have l0 : lf 0 = 0 := lf_zero
    have l1 : lf 1 = 0 := by simp [lf]
    have l2 : lf 2 = Real.log 2 := by simp [lf]
    have hc : Y 0 0 = 0 ∨ Y 0 0 = 1 := by omega
    rcases hc with h | h
    · have a : Y 0 1 = 1 := by omega
      have b : Y 1 0 = 1 := by omega
      have c : Y 1 1 = 1 := by omega
      rw [h, a, b, c, l0, l1]; linarith
    · have a : Y 0 1 = 0 := by omega
      have b : Y 1 0 = 0 := by omega
      have c : Y 1 1 = 2 := by omega
      rw [h, a, b, c, l0, l1, l2]; linarith

theorem sp_ok {E : Env} {fact : Fact} (hf : FactOK fact) (hE : E.sp = f4 fact) (r k : ℕ) : SpOK E.sp r k := by
  intro rows cols q v hv h1 _ h3 hs _ _ _ hq
  rw [hE] at hv
  obtain ⟨T, e1, e2, rfl⟩ := len_table hs hq
  have := f4_tab hf h1 h3 (q := cellSum T) ⟨_, _, T, by rw [e1, List.ofFn_get], by rw [e2, List.ofFn_get], rfl⟩ hv
  linarith

/-- **C185.** With f3xact and f4xact as they are in the code: without error, "p value" is
the probability of the tables with the same margins that are no more probable, up to
the tolerance (see `C185_p_value`). -/
theorem C185_fisher_test {E : Env} {r c : ℕ} {m : ℕ → ℕ → ℝ} {X : Table r c} {out : FOut} (hE : EnvOrders E)
    (hlp : E.lp = f3 (factArr (total X))) (hsp : E.sp = f4 (factArr (total X))) (hm : HoldsTable m X)
    (h : fisherExact E r c m = .ok out) (he : out.error = false) :
    ∃ p, out.pre = .num p
      ∧ p ≤ Real.exp ((max r c - 2 : ℕ) * tolC) * tail X (prob X * Real.exp (tolC + (max r c - 2 : ℕ) * tolC))
      ∧ Real.exp (-((max r c - 2 : ℕ) * tolC)) * tailBelow X (prob X * Real.exp (tolC - (max r c - 2 : ℕ) * tolC)) ≤ p :=
  C185_p_value hE (lp_ok (factArr_ok _) hlp _ _) (sp_ok (factArr_ok _) hsp _ _) hm h he

/-- **C185.** With f3xact and f4xact as they are in the code: without error, and if the
units can be arranged in fewer than 2896000 ways over the shorter side's categories,
"p value" is exactly the probability of the tables with the same margins that are no
more probable than the observed one. -/
theorem C185_fisher_test_exact {E : Env} {r c : ℕ} {m : ℕ → ℕ → ℝ} {X : Table r c} {out : FOut} (hE : EnvOrders E)
    (hlp : E.lp = f3 (factArr (total X))) (hsp : E.sp = f4 (factArr (total X))) (hm : HoldsTable m X) (hM : ways X ≤ 2896000)
    (h : fisherExact E r c m = .ok out) (he : out.error = false) : out.pre = .num (pValue X) :=
  C185_p_value_exact hE (lp_ok (factArr_ok _) hlp _ _) (sp_ok (factArr_ok _) hsp _ _) hm hM h he

/-- A matrix that holds the table, and the code's bounds: the test returns. -/
example (m : ℕ → ℕ → ℝ) (X : Table 2 2) (hX : X = ![![3, 1], ![1, 3]]) (hm : HoldsTable m X) :
    ∃ (E : Env) (out : FOut), EnvOrders E ∧ E.lp = f3 (factArr (total X)) ∧ E.sp = f4 (factArr (total X))
      ∧ fisherExact E 2 2 m = .ok out ∧ out.error = false := by
  have ht : total X = 8 := by subst hX; decide
  obtain ⟨out, h1, h2⟩ := C187_two_columns_no_error (E := ⟨f3 (factArr (total X)), f4 (factArr (total X)), id, id⟩) (le_refl 2) hm (by omega) (by omega)
  exact ⟨_, out, ⟨fun _ => List.Perm.refl _, fun _ => List.Perm.refl _⟩, rfl, rfl, h1, h2⟩

/-- A least probable table of two rows and three columns, with margins in order; and
f4xact returns for its margins. -/
example : ∃ Y : Table 2 3, (∀ T : Table 2 3, rowTot T = rowTot Y → colTot T = colTot Y → ∑ i, ∑ j, lf (T i j) ≤ ∑ i, ∑ j, lf (Y i j))
    ∧ List.ofFn (rowTot Y) = [3, 4] ∧ List.ofFn (colTot Y) = [1, 2, 4] ∧ ∃ v, f4 (factArr 7) (List.ofFn (rowTot Y)) (List.ofFn (colTot Y)) = .ok v := by
  obtain ⟨Z, hZ1, hZ2⟩ : ∃ Z : Table 2 3, List.ofFn (rowTot Z) = [3, 4] ∧ List.ofFn (colTot Z) = [1, 2, 4] :=
    ⟨![![1, 2, 0], ![0, 0, 4]], by decide, by decide⟩
  obtain ⟨Y, hY, hmax⟩ := exists_max_image (tables (rowTot Z) (colTot Z)) cellSum ⟨Z, mem_tables.mpr ⟨rfl, rfl⟩⟩
  obtain ⟨h1, h2⟩ := mem_tables.mp hY
  have e1 : List.ofFn (rowTot Y) = [3, 4] := by rw [h1]; exact hZ1
  have e2 : List.ofFn (colTot Y) = [1, 2, 4] := by rw [h2]; exact hZ2
  refine ⟨Y, fun T a b => hmax T (mem_tables.mpr ⟨a.trans h1, b.trans h2⟩), e1, e2, ?_⟩
  rw [e1, e2]
  exact C195_shortest_path_returns (by simp) (by simp) (by simp) (by simp)

end Apop.Fisher.F3
