import Verif.Fisher.ExactThms

/-! # apop_test_fisher_exact: the theorems -/

namespace Apop.Fisher
open Finset

theorem tailBelow_transpose {r c : ℕ} (X : Table r c) (b : ℝ) :
    tailBelow (fun j i => X i j : Table c r) b = tailBelow X b := by
  unfold tailBelow
  rw [show rowTot (fun j i => X i j : Table c r) = colTot X from rfl, show colTot (fun j i => X i j : Table c r) = rowTot X from rfl,
    tables_transpose]
  refine sum_congr rfl (fun Y _ => ?_)
  rw [prob_transpose]

/-- A run without error: the network and its start. -/
theorem fisher_inv {E : Env} {r c : ℕ} {m : ℕ → ℕ → ℝ} {X : Table r c} {out : FOut} (hm : HoldsTable m X)
    (h : fisherExact E r c m = .ok out) (he : out.error = false) :
    ∃ tab pre, HoldsInts tab X ∧ 0 < total X ∧ 2 ≤ c
      ∧ network (parOf E r c tab) (margins r c tab).2 [((margins r c tab).1, [(0, 1)])] 0 = .ok pre
      ∧ out = ⟨.num (Real.exp (obsOf r c tab - (parOf E r c tab).dro)), .num pre, false⟩ := by
  unfold fisherExact at h
  cases ht : toIntArray r c m with
  | ub => rw [ht] at h; cases h
  | ok tab =>
    rw [ht] at h
    have hi := toIntArray_ok hm ht
    obtain ⟨h1, h2, _, h4⟩ := fexact_inv hi h he
    obtain ⟨pre, h5, h6⟩ := runNet_inv h4 he
    exact ⟨tab, pre, hi, h1, h2, h5, h6⟩

/-- **C184.** Without error, "probability of table" is the probability of the table
given its margins, times `e` to the power of the tolerance (0.000000345254). -/
theorem C184_probability {E : Env} {r c : ℕ} {m : ℕ → ℕ → ℝ} {X : Table r c} {out : FOut} (hm : HoldsTable m X)
    (h : fisherExact E r c m = .ok out) (he : out.error = false) : out.prt = .num (prob X * Real.exp tolC) := by
  obtain ⟨tab, pre, hi, hp, hc, _, rfl⟩ := fisher_inv hm h he
  by_cases hw : c < r
  · have := prt_eq (start_tall (E := E) hi hw hc hp)
    rw [prob_transpose] at this
    exact congrArg Val.num this
  · exact congrArg Val.num (prt_eq (start_wide (E := E) hi hw hc hp))

theorem tol_small : Real.exp tolC - 1 < 345255 / 1000000000000 := by
  have h := Real.abs_exp_sub_one_sub_id_le (x := tolC) (by unfold tolC; rw [abs_of_pos (by norm_num)]; norm_num)
  rw [abs_le] at h
  have : tolC ^ 2 < 1 / 1000000000000 := by unfold tolC; norm_num
  have h2 : tolC = 345254 / 1000000000000 := rfl
  linarith [h.2]

/-- **C184.** The relative error of "probability of table" is below 0.00000035, and it
is always too large. -/
theorem C184_relative_error {E : Env} {r c : ℕ} {m : ℕ → ℕ → ℝ} {X : Table r c} {out : FOut} (hm : HoldsTable m X)
    (h : fisherExact E r c m = .ok out) (he : out.error = false) :
    ∃ p, out.prt = .num p ∧ prob X < p ∧ p < prob X * (1 + 345255 / 1000000000000) := by
  refine ⟨_, C184_probability hm h he, ?_, ?_⟩
  · have h1 := Real.add_one_lt_exp tolC_pos.ne'
    have h2 := prob_pos X
    have h3 := tolC_pos
    nlinarith
  · have := tol_small
    exact mul_lt_mul_of_pos_left (by linarith) (prob_pos X)

theorem ctx_true {E : Env} {r c : ℕ} {tab : ℕ → ℤ} (hE : EnvOrders E) {r' k' : ℕ} (hlp : LpOK E.lp r' k') (hsp : SpOK E.sp r' k')
    (hl : (margins r c tab).1.length ≤ r') :
    Ctx (parOf E r c tab) (margins r c tab).1 (fun _ _ => True) tolC r' k' where
  tol := tolC_pos.le
  eps := tolC_pos.le
  kyy := rfl
  ord := hE
  lp := hlp
  sp := hsp
  rows := hl
  step := fun _ _ _ _ _ _ => trivial
  close := fun _ _ _ _ _ h => h

theorem ctx_int {E : Env} {r c : ℕ} {tab : ℕ → ℤ} (hE : EnvOrders E) {r' k' : ℕ} (hlp : LpOK E.lp r' k') (hsp : SpOK E.sp r' k')
    (hl : (margins r c tab).1.length ≤ r') {M : ℝ} (hM : M * (Real.exp tolC - 1) < 1) :
    Ctx (parOf E r c tab) (margins r c tab).1 (InvInt M) 0 r' k' where
  tol := tolC_pos.le
  eps := le_refl _
  kyy := rfl
  ord := hE
  lp := hlp
  sp := hsp
  rows := hl
  step := fun _ _ _ _ h hd => invInt_step h hd
  close := fun _ _ _ h1 h2 h => invInt_close tolC_pos.le hM h1 h2 h

/-- **C185.** Without error, and if the bounds on the longest and shortest paths are
valid, "p value" is the probability of the tables with the same margins that are no
more probable, up to the tolerance: tables more probable than the observed one by a
factor of at most `e ^ (tol (max r c - 1))` may be counted, and tables less probable
by a factor of at least `e ^ (tol (max r c - 3))` are; the sum is exact up to a
factor of `e ^ (tol (max r c - 2))`. -/
theorem C185_p_value {E : Env} {r c : ℕ} {m : ℕ → ℕ → ℝ} {X : Table r c} {out : FOut} (hE : EnvOrders E)
    (hlp : LpOK E.lp (min r c) (max r c - 1)) (hsp : SpOK E.sp (min r c) (max r c - 1)) (hm : HoldsTable m X)
    (h : fisherExact E r c m = .ok out) (he : out.error = false) :
    ∃ p, out.pre = .num p
      ∧ p ≤ Real.exp ((max r c - 2 : ℕ) * tolC) * tail X (prob X * Real.exp (tolC + (max r c - 2 : ℕ) * tolC))
      ∧ Real.exp (-((max r c - 2 : ℕ) * tolC)) * tailBelow X (prob X * Real.exp (tolC - (max r c - 2 : ℕ) * tolC)) ≤ p := by
  obtain ⟨tab, pre, hi, hp, hc, hn, rfl⟩ := fisher_inv hm h he
  refine ⟨pre, rfl, ?_⟩
  by_cases hw : c < r
  · rw [min_eq_right hw.le, max_eq_left hw.le] at *
    have C := ctx_true (r := r) (c := c) (tab := tab) hE hlp hsp (by rw [margins_tall hi hw, sortUp_length, List.length_ofFn])
    have := net_table C (start_tall (E := E) hi hw hc hp) trivial hn
    rw [prob_transpose] at this
    rw [← tail_transpose, ← tailBelow_transpose]
    exact this
  · rw [min_eq_left (not_lt.mp hw), max_eq_right (not_lt.mp hw)] at *
    have C := ctx_true (r := r) (c := c) (tab := tab) hE hlp hsp (by rw [margins_wide hi hw, sortUp_length, List.length_ofFn])
    exact net_table C (start_wide (E := E) hi hw hc hp) trivial hn

/-- The number of ways to arrange the units: `total! / ∏ row totals!`. -/
noncomputable def arrangements {r c : ℕ} (X : Table r c) : ℝ :=
  ((total X).factorial : ℝ) / ∏ i, ((rowTot X i).factorial : ℝ)

theorem arrangements_eq {r c : ℕ} (X : Table r c) : Real.exp (lmult (total X) (List.ofFn (rowTot X))) = arrangements X := by
  rw [exp_lmult, List.map_ofFn, List.prod_ofFn]; rfl

/-- The length of a path is the logarithm of an integer. -/
theorem path_int {r c : ℕ} (Y : Table r c) : ∃ a : ℕ, 0 < a ∧ path Y = Real.log a := by
  have : ∀ j : Fin c, ∃ b : ℕ, 0 < b ∧ Real.exp (lf (colTot Y j) - ∑ i, lf (Y i j)) = b := by
    intro j
    obtain ⟨b, hb, he⟩ := mult_nat (List.ofFn fun i => Y i j)
    refine ⟨b, hb, ?_⟩
    rw [← he]
    unfold lmult
    rw [sum_ofFn_map, List.sum_ofFn]; rfl
  choose b hb he using this
  refine ⟨∏ j, b j, prod_pos (fun j _ => hb j), ?_⟩
  rw [← Real.log_exp (path Y)]
  congr 1
  unfold path
  rw [Real.exp_sum, Nat.cast_prod]
  exact prod_congr rfl (fun j _ => he j)

theorem prob_le_one {r c : ℕ} (X : Table r c) : prob X ≤ 1 := by
  rw [← prob_sum X]
  exact single_le_sum (f := fun Y => prob Y) (fun Y _ => (prob_pos Y).le) (mem_tables.mpr ⟨rfl, rfl⟩)

theorem net_exact {r c : ℕ} {P : Par} {Z : Table r c} {iro ico : List ℕ} {pre : ℝ} (ht : P.tol = tolC)
    (hM : arrangements Z * (Real.exp tolC - 1) < 1)
    (C : Ctx P iro (InvInt (arrangements Z)) 0 r (c - 1)) (s : Start P Z iro ico)
    (h : network P ico [(iro, [(0, 1)])] 0 = .ok pre) : pre = pValue Z := by
  have h0 : InvInt (arrangements Z) iro 0 := by
    refine ⟨1, by omega, by simp, ?_⟩
    rw [Nat.cast_one, one_mul, s.iro, lmult_sum_perm (sortUp_perm _), List.sum_ofFn, total_rows, arrangements_eq]
  obtain ⟨h1, h2⟩ := net_table C s h0 h
  rw [mul_zero, Real.exp_zero, one_mul] at h1
  rw [mul_zero, neg_zero, Real.exp_zero, one_mul] at h2
  rw [add_zero, ht] at h1
  rw [sub_zero, ht] at h2
  have hgap : ∀ Y ∈ tables (rowTot Z) (colTot Z), prob Y ≤ prob Z * Real.exp tolC → prob Y ≤ prob Z := by
    intro Y hY hle
    rw [prob_cmp hY] at hle
    have hz := prob_cmp hY 0
    rw [Real.exp_zero, mul_one, add_zero] at hz
    rw [hz]
    obtain ⟨a, ha, hpa⟩ := path_int Y
    obtain ⟨b, hb, hpb⟩ := path_int Z
    rw [hpa, hpb] at hle ⊢
    by_contra hc
    rw [not_le] at hc
    have hb' : (0 : ℝ) < b := by exact_mod_cast hb
    have hab : b < a := by
      have ha' : (0 : ℝ) < a := by exact_mod_cast ha
      have := (Real.log_lt_log_iff hb' ha').mp hc
      exact_mod_cast this
    have hbM : (b : ℝ) ≤ arrangements Z := by
      have h3 := prob_le_one Z
      rw [prob_path, ← Real.exp_zero, Real.exp_le_exp, hpb] at h3
      rw [← arrangements_eq, ← Real.exp_log hb', Real.exp_le_exp]
      linarith
    have := log_gap tolC_pos.le hb hab hbM hM
    linarith
  refine le_antisymm (le_trans h1 (le_of_eq ?_)) (le_trans (le_of_eq ?_) h2)
  · unfold pValue tail
    refine sum_congr rfl (fun Y hY => ?_)
    by_cases hle : prob Y ≤ prob Z * Real.exp tolC
    · rw [if_pos hle, if_pos (hgap Y hY hle)]
    · rw [if_neg hle, if_neg]
      intro hc
      refine hle (le_trans hc ?_)
      have h1 := Real.add_one_le_exp tolC
      have := prob_pos Z
      have := tolC_pos
      nlinarith
  · unfold pValue tail
    refine sum_congr rfl (fun Y hY => ?_)
    by_cases hle : prob Y ≤ prob Z
    · rw [if_pos hle, if_pos]
      refine lt_of_le_of_lt hle ?_
      have h1 := Real.add_one_lt_exp tolC_pos.ne'
      have := prob_pos Z
      have := tolC_pos
      nlinarith
    · rw [if_neg hle, if_neg]
      intro hc
      exact hle (hgap Y hY hc.le)

/-- The shorter side's multinomial coefficient. -/
noncomputable def ways {r c : ℕ} (X : Table r c) : ℝ :=
  if c < r then arrangements (fun j i => X i j : Table c r) else arrangements X

/-- **C185.** If the units can be arranged in fewer than 2896000 ways over the shorter
side's categories, then "p value" is exactly the probability of the tables with the
same margins that are no more probable than the observed one. -/
theorem C185_p_value_exact {E : Env} {r c : ℕ} {m : ℕ → ℕ → ℝ} {X : Table r c} {out : FOut} (hE : EnvOrders E)
    (hlp : LpOK E.lp (min r c) (max r c - 1)) (hsp : SpOK E.sp (min r c) (max r c - 1)) (hm : HoldsTable m X)
    (hM : ways X ≤ 2896000)
    (h : fisherExact E r c m = .ok out) (he : out.error = false) : out.pre = .num (pValue X) := by
  obtain ⟨tab, pre, hi, hp, hc, hn, rfl⟩ := fisher_inv hm h he
  have hsmall := tol_small
  have hge : 0 ≤ Real.exp tolC - 1 := by have := Real.add_one_le_exp tolC; have := tolC_pos; linarith
  refine congrArg Val.num ?_
  show pre = _
  unfold ways at hM
  by_cases hw : c < r
  · rw [if_pos hw] at hM
    rw [min_eq_right hw.le, max_eq_left hw.le] at *
    have hM' : arrangements (fun j i => X i j : Table c r) * (Real.exp tolC - 1) < 1 :=
      lt_of_le_of_lt (mul_le_mul_of_nonneg_right hM hge) (by linarith)
    have C := ctx_int (r := r) (c := c) (tab := tab) hE hlp hsp (by rw [margins_tall hi hw, sortUp_length, List.length_ofFn]) hM'
    rw [net_exact rfl hM' C (start_tall (E := E) hi hw hc hp) hn]
    unfold pValue
    rw [tail_transpose, prob_transpose]
  · rw [if_neg hw] at hM
    rw [min_eq_left (not_lt.mp hw), max_eq_right (not_lt.mp hw)] at *
    have hM' : arrangements X * (Real.exp tolC - 1) < 1 :=
      lt_of_le_of_lt (mul_le_mul_of_nonneg_right hM hge) (by linarith)
    have C := ctx_int (r := r) (c := c) (tab := tab) hE hlp hsp (by rw [margins_wide hi hw, sortUp_length, List.length_ofFn]) hM'
    exact net_exact rfl hM' C (start_wide (E := E) hi hw hc hp) hn

end Apop.Fisher
