import Verif.Fisher.ExactNet

/-! # apop_test_fisher_exact: what the two numbers are -/

namespace Apop.Fisher
open Finset

/-- The data set's matrix holds the counts of the table `X`. -/
def HoldsTable {r c : ℕ} (m : ℕ → ℕ → ℝ) (X : Table r c) : Prop := ∀ (i : Fin r) (j : Fin c), m i j = (X i j : ℝ)

/-- The int array holds the counts of the table `X`, column by column. -/
def HoldsInts {r c : ℕ} (tab : ℕ → ℤ) (X : Table r c) : Prop := ∀ (i : Fin r) (j : Fin c), tab (i + j * r) = (X i j : ℤ)

/-- The orders in which the hash tables are read leave nothing out. -/
def EnvOrders (E : Env) : Prop := (∀ ch, List.Perm (E.ord ch) ch) ∧ ∀ tab, List.Perm (E.pop tab) tab

theorem trunc_nat (n : ℕ) : trunc (n : ℝ) = n := by
  unfold trunc
  rw [if_pos (Nat.cast_nonneg n), Int.floor_natCast]

theorem list_range_ofFn {α : Type} (n : ℕ) (f : ℕ → α) : (List.range n).map f = List.ofFn (fun i : Fin n => f i) := by
  refine List.ext_getElem (by simp) (fun i h1 h2 => by simp)

theorem sum_range_fin (n : ℕ) (f : ℕ → ℕ) : ((List.range n).map f).sum = ∑ i : Fin n, f i := by
  rw [list_range_ofFn, List.sum_ofFn]

theorem rowSums_eq {r c : ℕ} {tab : ℕ → ℤ} {X : Table r c} (h : HoldsInts tab X) :
    rowSums r c tab = List.ofFn (rowTot X) := by
  unfold rowSums
  rw [list_range_ofFn]
  congr 1
  funext i
  rw [sum_range_fin]
  exact sum_congr rfl (fun j _ => by rw [h i j]; simp)

theorem colSums_eq {r c : ℕ} {tab : ℕ → ℤ} {X : Table r c} (h : HoldsInts tab X) :
    colSums r c tab = List.ofFn (colTot X) := by
  unfold colSums
  rw [list_range_ofFn]
  congr 1
  funext j
  rw [sum_range_fin]
  exact sum_congr rfl (fun i _ => by rw [h i j]; simp)

theorem grand_eq {r c : ℕ} {tab : ℕ → ℤ} {X : Table r c} (h : HoldsInts tab X) : grand r c tab = (total X : ℤ) := by
  unfold grand total
  rw [list_range_ofFn, List.sum_ofFn, Nat.cast_sum]
  refine sum_congr rfl (fun i _ => ?_)
  rw [list_range_ofFn, List.sum_ofFn, Nat.cast_sum]
  exact sum_congr rfl (fun j _ => h i j)

theorem foldl_add (f : ℕ → ℝ) (n : ℕ) (a : ℝ) : (List.range n).foldl (fun o j => o + f j) a = a + ∑ j : Fin n, f j := by
  induction n with
  | zero => simp
  | succ n ih => rw [List.range_succ, List.foldl_append, ih, Fin.sum_univ_castSucc]; simp [add_assoc]

theorem toIntArray_ok {r c : ℕ} {m : ℕ → ℕ → ℝ} {tab : ℕ → ℤ} {X : Table r c} (hm : HoldsTable m X)
    (h : toIntArray r c m = .ok tab) : HoldsInts tab X := by
  unfold toIntArray at h
  split at h
  · cases h
    intro i j
    have h1 : (↑i + ↑j * r) % r = (i : ℕ) := by rw [Nat.add_mul_mod_self_right, Nat.mod_eq_of_lt i.2]
    have h2 : (↑i + ↑j * r) / r = (j : ℕ) := by
      rw [Nat.add_mul_div_right _ _ (by have := i.2; omega), Nat.div_eq_of_lt i.2, zero_add]
    show trunc (m ((↑i + ↑j * r) % r) ((↑i + ↑j * r) / r)) = _
    rw [h1, h2, hm i j, trunc_nat]
  · cases h

theorem margins_wide {r c : ℕ} {tab : ℕ → ℤ} {X : Table r c} (h : HoldsInts tab X) (hw : ¬ c < r) :
    margins r c tab = (sortUp (List.ofFn (rowTot X)), sortUp (List.ofFn (colTot X))) := by
  unfold margins; rw [if_neg hw, rowSums_eq h, colSums_eq h]

theorem margins_tall {r c : ℕ} {tab : ℕ → ℤ} {X : Table r c} (h : HoldsInts tab X) (hw : c < r) :
    margins r c tab = (sortUp (List.ofFn (colTot X)), sortUp (List.ofFn (rowTot X))) := by
  unfold margins; rw [if_pos hw, rowSums_eq h, colSums_eq h]

theorem sum_sorted_getD {n : ℕ} (f : Fin n → ℕ) : ∑ j : Fin n, lf ((sortUp (List.ofFn f)).getD j 0) = ∑ j, lf (f j) := by
  have hl : (sortUp (List.ofFn f)).length = n := by rw [sortUp_length, List.length_ofFn]
  have h1 : (List.ofFn (fun j : Fin n => (sortUp (List.ofFn f)).getD j 0)) = sortUp (List.ofFn f) := by
    refine List.ext_getElem (by simp [hl]) (fun i h1 h2 => ?_)
    rw [List.getElem_ofFn]; exact List.getD_eq_getElem _ _ h2
  rw [← sum_ofFn_map (fun j : Fin n => (sortUp (List.ofFn f)).getD j 0) lf, h1, ((sortUp_perm _).map lf).sum_eq, sum_ofFn_map]

/-- The table as the network sees it, with no more rows than columns. -/
theorem obs_wide {r c : ℕ} {tab : ℕ → ℤ} {X : Table r c} (h : HoldsInts tab X) (hw : ¬ c < r) :
    obsOf r c tab = path X + tolC := by
  unfold obsOf
  rw [foldl_add, max_eq_right (by omega), margins_wide h hw]
  unfold path
  rw [sum_sub_distrib, sum_sub_distrib]
  simp only [factC_eq]
  rw [sum_sorted_getD]
  have : ∀ j : Fin c, ddOf r c tab j = ∑ i, lf (X i j) := by
    intro j
    unfold ddOf
    rw [if_neg hw, foldl_add, zero_add]
    refine sum_congr rfl (fun i _ => ?_)
    rw [Nat.add_comm, h i j, factC_eq]; simp
  simp only [this]
  ring

theorem obs_tall {r c : ℕ} {tab : ℕ → ℤ} {X : Table r c} (h : HoldsInts tab X) (hw : c < r) :
    obsOf r c tab = path (fun j i => X i j) + tolC := by
  unfold obsOf
  rw [foldl_add, max_eq_left (by omega), margins_tall h hw]
  unfold path
  rw [sum_sub_distrib, sum_sub_distrib]
  simp only [factC_eq]
  rw [sum_sorted_getD]
  have : ∀ j : Fin r, ddOf r c tab j = ∑ i, lf (X j i) := by
    intro j
    unfold ddOf
    rw [if_pos hw, foldl_add, zero_add]
    refine sum_congr rfl (fun i _ => ?_)
    rw [h j i, factC_eq]; simp
  simp only [this]
  rw [show ∑ j, lf (rowTot X j) = ∑ j, lf (colTot (fun j i => X i j) j) from rfl]
  ring

/-- The tests at the start let only proper tables through. -/
theorem fexact_inv {E : Env} {r c : ℕ} {tab : ℕ → ℤ} {X : Table r c} {out : FOut} (h : HoldsInts tab X)
    (hr : fexact E r c tab = .ok out) (he : out.error = false) :
    0 < total X ∧ 2 ≤ c ∧ RoomOK r c (total X) ∧ runNet E r c tab = .ok out := by
  unfold fexact at hr
  rw [grand_eq h] at hr
  by_cases h1 : (total X : ℤ) = 0
  · rw [if_pos h1] at hr; cases hr; cases he
  rw [if_neg h1] at hr
  by_cases h2 : ¬ RoomOK r c (total X)
  · rw [if_pos h2] at hr; cases hr
  rw [if_neg h2] at hr
  by_cases h3 : c ≤ 1
  · rw [if_pos h3] at hr; cases hr; cases he
  rw [if_neg h3] at hr
  split at hr
  · cases hr; cases he
  by_cases h5 : ¬ keysFit 1 (margins r c tab).1
  · rw [if_pos h5] at hr; cases hr; cases he
  rw [if_neg h5] at hr
  exact ⟨by omega, by omega, not_not.mp h2, hr⟩

theorem runNet_inv {E : Env} {r c : ℕ} {tab : ℕ → ℤ} {out : FOut} (hr : runNet E r c tab = .ok out) (he : out.error = false) :
    ∃ pre, network (parOf E r c tab) (margins r c tab).2 [((margins r c tab).1, [(0, 1)])] 0 = .ok pre
      ∧ out = ⟨.num (Real.exp (obsOf r c tab - (parOf E r c tab).dro)), .num pre, false⟩ := by
  unfold runNet at hr
  cases hn : network (parOf E r c tab) (margins r c tab).2 [((margins r c tab).1, [(0, 1)])] 0 with
  | ok pre => rw [hn] at hr; cases hr; exact ⟨pre, rfl, rfl⟩
  | err => rw [hn] at hr; cases hr; cases he
  | ub => rw [hn] at hr; cases hr

theorem start_wide {E : Env} {r c : ℕ} {tab : ℕ → ℤ} {X : Table r c} (h : HoldsInts tab X) (hw : ¬ c < r) (hc : 2 ≤ c)
    (hp : 0 < total X) : Start (parOf E r c tab) X (margins r c tab).1 (margins r c tab).2 where
  iro := by rw [margins_wide h hw]
  ico := by rw [margins_wide h hw]
  obs := obs_wide h hw
  dro := by
    show f9xact (rowSums r c tab).sum (margins r c tab).1 = _
    rw [f9xact_eq, margins_wide h hw, rowSums_eq h, lmult_perm (sortUp_perm _), List.sum_ofFn, total_rows]
  cols := hc
  pos := hp

theorem start_tall {E : Env} {r c : ℕ} {tab : ℕ → ℤ} {X : Table r c} (h : HoldsInts tab X) (hw : c < r) (hc : 2 ≤ c)
    (hp : 0 < total X) : Start (parOf E r c tab) (fun j i => X i j : Table c r) (margins r c tab).1 (margins r c tab).2 where
  iro := by rw [margins_tall h hw]; rfl
  ico := by rw [margins_tall h hw]; rfl
  obs := obs_tall h hw
  dro := by
    show f9xact (rowSums r c tab).sum (margins r c tab).1 = _
    rw [f9xact_eq, margins_tall h hw, rowSums_eq h, lmult_perm (sortUp_perm _), List.sum_ofFn, total_rows]
    have : total X = total (fun j i => X i j : Table c r) := by unfold total; exact sum_comm
    rw [this]; rfl
  cols := by omega
  pos := by
    have : total (fun j i => X i j : Table c r) = total X := by unfold total; exact sum_comm
    omega

theorem tolC_pos : 0 < tolC := by unfold tolC; norm_num

/-- The probability of the table is multiplied by `e` to the power of the tolerance. -/
theorem prt_eq {r c : ℕ} {P : Par} {Z : Table r c} {iro ico : List ℕ} (s : Start P Z iro ico) :
    Real.exp (P.obs - P.dro) = prob Z * Real.exp P.tol := by
  rw [s.obs, s.dro, prob_path, ← Real.exp_add]; congr 1; ring

theorem tail_transpose {r c : ℕ} (X : Table r c) (b : ℝ) : tail (fun j i => X i j : Table c r) b = tail X b := by
  unfold tail
  rw [show rowTot (fun j i => X i j : Table c r) = colTot X from rfl, show colTot (fun j i => X i j : Table c r) = rowTot X from rfl,
    tables_transpose]
  refine sum_congr rfl (fun Y _ => ?_)
  rw [prob_transpose]

end Apop.Fisher
