import Verif.Fisher.Layout

/-! # Tables of two columns, and what goes wrong -/

namespace Apop.Fisher
open Finset

theorem visit_last_ok (P : Par) (o x y : ℝ) (key : ℕ) : ∀ (ch : List (ℝ × ℕ)) (st : St), ∃ st', visit P o o x y key ch st = .ok st' := by
  intro ch
  induction ch with
  | nil => intro st; exact ⟨st, rfl⟩
  | cons e ch ih =>
    intro st
    obtain ⟨p, f⟩ := e
    unfold visit
    by_cases h1 : p ≤ o
    · rw [if_pos h1]; exact ih ⟨st.pre + f * Real.exp (p + x), st.seen, st.tab, st.itop⟩
    · rw [if_neg h1, if_neg (fun h => h1 h.le)]; exact ih st

theorem allDaughters_last_ok (P : Par) (l : List ℕ) (n m : ℕ) (ch : List (ℝ × ℕ)) : ∀ (ds : List (List ℕ)) (st : St),
    ∃ st', allDaughters P l n [m] ch ds st = .ok st' := by
  intro ds
  induction ds with
  | nil => intro st; exact ⟨st, rfl⟩
  | cons d ds ih =>
    intro st
    unfold allDaughters daughter
    rw [if_neg (by simp)]
    unfold lastDaughter
    obtain ⟨st1, h1⟩ := visit_last_ok P (P.obs - (f9xact [m].sum (leave l d) - P.dro + f9xact n d) - P.dro)
      (f9xact [m].sum (leave l d) - P.dro + f9xact n d) (f9xact n d) 0 ch st
    rw [h1]
    exact ih st1

theorem network_two_ok (P : Par) {iro : List ℕ} {n m : ℕ} (hs : iro.Pairwise (· ≤ ·)) (hsum : iro.sum = n + m) (hm : 0 < m)
    (ch : List (ℝ × ℕ)) (pre : ℝ) : ∃ p, network P [n, m] [(iro, ch)] pre = .ok p := by
  obtain ⟨ds, e1, _, _⟩ := daughters_spec (l := iro) (n := n) (sorted_last hs (by omega)) (by omega)
  obtain ⟨st, h⟩ := allDaughters_last_ok P iro n m ch ds ⟨pre, [], [], 0⟩
  unfold network
  rw [if_neg (by simp)]
  unfold stage mother
  rw [e1]
  simp only []
  rw [h]
  unfold stage
  unfold network
  simp only [if_true]
  exact ⟨_, rfl⟩

theorem keysFit_two {l : List ℕ} (hl : l.length ≤ 2) (hs : l.sum ≤ 92678) : keysFit 1 l := by
  match l, hl with
  | [], _ => trivial
  | [a], _ =>
    simp only [List.sum_cons, List.sum_nil] at hs
    refine ⟨?_, trivial⟩
    rw [Nat.div_one]; unfold intMax; omega
  | [a, b], _ =>
    simp only [List.sum_cons, List.sum_nil] at hs
    refine ⟨?_, ?_, trivial⟩
    · rw [Nat.div_one]; unfold intMax; omega
    · rw [one_mul, Nat.le_div_iff_mul_le (by omega)]
      unfold intMax
      have h1 : a + b ≤ 92678 := by omega
      zify at h1 ⊢
      nlinarith [sq_nonneg ((a : ℤ) - b)]

theorem cell_le_total {r c : ℕ} (X : Table r c) (i : Fin r) (j : Fin c) : X i j ≤ total X := by
  unfold total
  refine le_trans ?_ (single_le_sum (f := fun i => ∑ j, X i j) (fun _ _ => Nat.zero_le _) (mem_univ i))
  exact single_le_sum (f := fun j => X i j) (fun _ _ => Nat.zero_le _) (mem_univ j)

theorem toIntArray_total {r c : ℕ} {m : ℕ → ℕ → ℝ} {X : Table r c} (hm : HoldsTable m X) (ht : total X ≤ 1000000) :
    ∃ tab, toIntArray r c m = .ok tab := by
  unfold toIntArray
  rw [if_pos]
  · exact ⟨_, rfl⟩
  · intro i hi j hj
    rw [hm ⟨i, hi⟩ ⟨j, hj⟩]
    have h1 : ((X ⟨i, hi⟩ ⟨j, hj⟩ : ℕ) : ℝ) ≤ 1000000 := by exact_mod_cast le_trans (cell_le_total X _ _) ht
    have h2 : (0 : ℝ) ≤ (X ⟨i, hi⟩ ⟨j, hj⟩ : ℕ) := Nat.cast_nonneg _
    exact ⟨by linarith, by linarith⟩

theorem fexact_run {E : Env} {r c : ℕ} {tab : ℕ → ℤ} {X : Table r c} (h : HoldsInts tab X) (hp : 0 < total X) (hc : 2 ≤ c)
    (hr : RoomOK r c (total X)) (hk : keysFit 1 (margins r c tab).1) : fexact E r c tab = runNet E r c tab := by
  unfold fexact
  rw [grand_eq h, if_neg (by omega), if_neg (not_not.mpr hr), if_neg (by omega), if_neg, if_neg (not_not.mpr hk)]
  rintro ⟨i, hi, j, hj, hneg⟩
  have := h ⟨i, hi⟩ ⟨j, hj⟩
  simp only [] at this
  omega

/-- **C187.** Tables of one or two rows and two columns, with a total of up to 92678:
no error, whatever the longest and shortest path bounds are. -/
theorem C187_two_columns_no_error {E : Env} {r : ℕ} {m : ℕ → ℕ → ℝ} {X : Table r 2} (hr : r ≤ 2)
    (hm : HoldsTable m X) (hp : 0 < total X) (ht : total X ≤ 92678) :
    ∃ out, fisherExact E r 2 m = .ok out ∧ out.error = false := by
  obtain ⟨tab, htab⟩ := toIntArray_total hm (by omega)
  have hi := toIntArray_ok hm htab
  have hw : ¬ 2 < r := by omega
  have hmg := margins_wide hi hw
  have hsR : (sortUp (List.ofFn (rowTot X))).sum = total X := by
    rw [(sortUp_perm _).sum_eq, List.sum_ofFn, total_rows]
  have hsC : (sortUp (List.ofFn (colTot X))).sum = total X := by
    rw [(sortUp_perm _).sum_eq, List.sum_ofFn, ← sum_margins, total_rows]
  have hrun := fexact_run (E := E) hi hp (le_refl 2) (C186_room_small (by omega) (by omega) (by omega) (by omega))
    (by rw [hmg]; exact keysFit_two (by rw [sortUp_length, List.length_ofFn]; exact hr) (by rw [hsR]; exact ht))
  unfold fisherExact
  rw [htab]
  simp only []
  rw [hrun]
  have hcl : (sortUp (List.ofFn (colTot X))).length = 2 := by rw [sortUp_length, List.length_ofFn]
  have hcs := sortUp_sorted (List.ofFn (colTot X))
  obtain ⟨a, b, hab⟩ : ∃ a b, sortUp (List.ofFn (colTot X)) = [a, b] := by
    match h : sortUp (List.ofFn (colTot X)), hcl with
    | [a, b], _ => exact ⟨a, b, rfl⟩
  rw [hab] at hsC hcs
  have hab2 : a ≤ b := by simpa using hcs
  simp only [List.sum_cons, List.sum_nil] at hsC
  obtain ⟨p, hp2⟩ := network_two_ok (parOf E r 2 tab) (iro := (margins r 2 tab).1) (n := a) (m := b)
    (by rw [hmg]; exact sortUp_sorted _) (by rw [hmg, hsR]; omega) (by omega) [(0, 1)] 0
  have hco : (margins r 2 tab).2 = [a, b] := by rw [hmg]; exact hab
  unfold runNet
  rw [hco, hp2]
  exact ⟨_, rfl, rfl⟩

theorem lpOK_one (lp : List ℕ → List ℕ → Net ℝ) (r : ℕ) : LpOK lp r 1 := by
  intro rows cols q v _ _ _ _ _ _ h1 h2; omega
theorem spOK_one (sp : List ℕ → List ℕ → Net ℝ) (r : ℕ) : SpOK sp r 1 := by
  intro rows cols q v _ _ _ _ _ _ h1 h2; omega

/-- **C187.** For those tables "p value" is the probability of the tables with the
same margins that are no more probable, with a tolerance of one part in three
million for what counts as no more probable. -/
theorem C187_two_columns {E : Env} (hE : EnvOrders E) {r : ℕ} {m : ℕ → ℕ → ℝ} {X : Table r 2} (hr : r ≤ 2)
    (hm : HoldsTable m X) (hp : 0 < total X) (ht : total X ≤ 92678) :
    ∃ p, fisherExact E r 2 m = .ok ⟨.num (prob X * Real.exp tolC), .num p, false⟩
      ∧ p ≤ tail X (prob X * Real.exp tolC) ∧ tailBelow X (prob X * Real.exp tolC) ≤ p := by
  obtain ⟨out, h1, h2⟩ := C187_two_columns_no_error (E := E) hr hm hp ht
  have hmax : max r 2 = 2 := by omega
  have h3 := C184_probability hm h1 h2
  obtain ⟨p, h4, h5, h6⟩ := C185_p_value hE (by rw [hmax]; exact lpOK_one _ _) (by rw [hmax]; exact spOK_one _ _) hm h1 h2
  rw [hmax] at h5 h6
  simp only [Nat.sub_self, Nat.cast_zero, zero_mul, neg_zero, Real.exp_zero, one_mul, add_zero, sub_zero] at h5 h6
  refine ⟨p, ?_, h5, h6⟩
  rw [h1]
  obtain ⟨o1, o2, o3⟩ := out
  simp only [] at h2 h3 h4
  rw [h2, h3, h4]

/-- **C187.** And exactly that, when the units can be arranged in at most 2896000 ways
over the rows. -/
theorem C187_two_columns_exact {E : Env} (hE : EnvOrders E) {r : ℕ} {m : ℕ → ℕ → ℝ} {X : Table r 2} (hr : r ≤ 2)
    (hm : HoldsTable m X) (hp : 0 < total X) (ht : total X ≤ 92678) (hw : ways X ≤ 2896000) :
    fisherExact E r 2 m = .ok ⟨.num (prob X * Real.exp tolC), .num (pValue X), false⟩ := by
  obtain ⟨out, h1, h2⟩ := C187_two_columns_no_error (E := E) hr hm hp ht
  have hmax : max r 2 = 2 := by omega
  have h3 := C184_probability hm h1 h2
  have h4 := C185_p_value_exact hE (by rw [hmax]; exact lpOK_one _ _) (by rw [hmax]; exact spOK_one _ _) hm hw h1 h2
  rw [h1]
  obtain ⟨o1, o2, o3⟩ := out
  simp only [] at h2 h3 h4
  rw [h2, h3, h4]

/-- **C184 (finding).** A table that is the only one with its margins has probability
one; the number given is more than one. -/
theorem C184_above_one_refuted : ∃ (X : Table 1 2), prob X = 1 ∧ ∀ E : Env, ∃ out,
    fisherExact E 1 2 (fun _ _ => 1) = .ok out ∧ out.error = false ∧ ∃ p, out.prt = .num p ∧ 1 < p := by
  refine ⟨fun _ _ => 1, ?_, ?_⟩
  · unfold prob rowTot colTot total
    simp
  · intro E
    obtain ⟨out, h1, h2⟩ := C187_two_columns_no_error (E := E) (r := 1) (m := fun _ _ => 1) (X := fun _ _ => 1) (by omega)
      (by intro i j; simp) (by simp [total]) (by simp [total])
    obtain ⟨p, h3, h4, _⟩ := C184_relative_error (X := fun _ _ => 1) (by intro i j; simp) h1 h2
    refine ⟨out, h1, h2, p, h3, ?_⟩
    have : prob (fun _ _ => 1 : Table 1 2) = 1 := by
      unfold prob rowTot colTot total
      simp
    rw [this] at h4; exact h4

/-- **C188.** A table of zeros: both numbers are NaN, and the error is marked. -/
theorem C188_zeros {E : Env} {r c : ℕ} {m : ℕ → ℕ → ℝ} {X : Table r c} (hm : HoldsTable m X) (h0 : total X = 0) :
    fisherExact E r c m = .ok ⟨.nan, .nan, true⟩ := by
  obtain ⟨tab, ht⟩ := toIntArray_total hm (by omega)
  have hi := toIntArray_ok hm ht
  unfold fisherExact
  rw [ht]
  simp only []
  unfold fexact
  rw [grand_eq hi, if_pos (by omega)]

/-- **C188.** One column: the error is marked. -/
theorem C188_one_column {E : Env} {r : ℕ} {m : ℕ → ℕ → ℝ} {X : Table r 1} (hm : HoldsTable m X) (hp : 0 < total X)
    (ht : total X ≤ 97000) (hr : r ≤ 13) : fisherExact E r 1 m = .ok ⟨.unset, .unset, true⟩ := by
  obtain ⟨tab, htab⟩ := toIntArray_total hm (by omega)
  have hi := toIntArray_ok hm htab
  unfold fisherExact
  rw [htab]
  simp only []
  unfold fexact
  rw [grand_eq hi, if_neg (by omega), if_neg (not_not.mpr (C186_room_small hr (by omega) (by omega) (by omega))), if_pos (le_refl _)]

/-- **C188 (finding).** The documentation promises NaN in case of an error. For a
column of two ones the two numbers are never set. -/
theorem C188_nan_refuted : ∀ E : Env, ∃ out, fisherExact E 2 1 (fun _ _ => 1) = .ok out ∧ out.error = true
    ∧ out.prt = .unset ∧ out.pre = .unset := by
  intro E
  exact ⟨_, C188_one_column (X := fun _ _ => 1) (by intro i j; simp) (by simp [total]) (by simp [total]) (by omega), rfl, rfl, rfl⟩

/-- **C188.** Fractions are dropped: the result is that of the truncated table. -/
theorem C188_truncated {E : Env} {r c : ℕ} {m m' : ℕ → ℕ → ℝ} (h : ∀ i < r, ∀ j < c, trunc (m i j) = trunc (m' i j))
    (hb : ∀ i < r, ∀ j < c, |m i j| < 2147483648 ∧ |m' i j| < 2147483648) : fisherExact E r c m = fisherExact E r c m' := by
  have hk : ∀ (m : ℕ → ℕ → ℝ), (∀ i < r, ∀ j < c, |m i j| < 2147483648) →
      toIntArray r c m = .ok (fun k => trunc (m (k % r) (k / r))) := by
    intro m hm
    unfold toIntArray
    rw [if_pos]
    intro i hi j hj
    have := abs_lt.mp (hm i hi j hj)
    exact ⟨by linarith, by linarith⟩
  have hcell : ∀ i < r, ∀ j < c, (fun k => trunc (m (k % r) (k / r))) (i + j * r) = (fun k => trunc (m' (k % r) (k / r))) (i + j * r) := by
    intro i hi j hj
    have h1 : (i + j * r) % r = i := by rw [Nat.add_mul_mod_self_right, Nat.mod_eq_of_lt hi]
    have h2 : (i + j * r) / r = j := by
      rw [Nat.add_mul_div_right _ _ (by omega), Nat.div_eq_of_lt hi, zero_add]
    simp only [h1, h2]
    exact h i hi j hj
  unfold fisherExact
  rw [hk m (fun i hi j hj => (hb i hi j hj).1), hk m' (fun i hi j hj => (hb i hi j hj).2)]
  generalize (fun k => trunc (m (k % r) (k / r))) = t1 at *
  generalize (fun k => trunc (m' (k % r) (k / r))) = t2 at *
  simp only []
  have a1 : grand r c t1 = grand r c t2 := by
    unfold grand
    congr 1
    refine List.map_congr_left (fun i hi => ?_)
    congr 1
    exact List.map_congr_left (fun j hj => hcell i (List.mem_range.mp hi) j (List.mem_range.mp hj))
  have a2 : rowSums r c t1 = rowSums r c t2 := by
    unfold rowSums
    refine List.map_congr_left (fun i hi => ?_)
    congr 1
    exact List.map_congr_left (fun j hj => by rw [hcell i (List.mem_range.mp hi) j (List.mem_range.mp hj)])
  have a3 : colSums r c t1 = colSums r c t2 := by
    unfold colSums
    refine List.map_congr_left (fun j hj => ?_)
    congr 1
    exact List.map_congr_left (fun i hi => by rw [hcell i (List.mem_range.mp hi) j (List.mem_range.mp hj)])
  have a4 : margins r c t1 = margins r c t2 := by unfold margins; rw [a2, a3]
  have a5 : obsOf r c t1 = obsOf r c t2 := by
    unfold obsOf
    rw [a4, foldl_add, foldl_add]
    congr 1
    refine Finset.sum_congr rfl (fun j _ => ?_)
    congr 1
    unfold ddOf
    by_cases hw : c < r
    · rw [if_pos hw, if_pos hw, foldl_add, foldl_add]
      congr 1
      refine Finset.sum_congr rfl (fun i _ => ?_)
      have hj : (j : ℕ) < r := by have := j.2; omega
      rw [hcell j hj i i.2]
    · rw [if_neg hw, if_neg hw, foldl_add, foldl_add]
      congr 1
      refine Finset.sum_congr rfl (fun i _ => ?_)
      have hj : (j : ℕ) < c := by have := j.2; omega
      rw [Nat.add_comm, hcell i i.2 j hj]
  have a6 : parOf E r c t1 = parOf E r c t2 := by unfold parOf; rw [a1, a2, a4, a5]
  have a7 : runNet E r c t1 = runNet E r c t2 := by unfold runNet; rw [a6, a4, a5]
  have a8 : (∃ i < r, ∃ j < c, t1 (i + j * r) < 0) ↔ ∃ i < r, ∃ j < c, t2 (i + j * r) < 0 := by
    constructor
    · rintro ⟨i, hi, j, hj, hn⟩; exact ⟨i, hi, j, hj, by rw [← hcell i hi j hj]; exact hn⟩
    · rintro ⟨i, hi, j, hj, hn⟩; exact ⟨i, hi, j, hj, by rw [hcell i hi j hj]; exact hn⟩
  unfold fexact
  rw [a1, a4, a7]
  simp only [a8]

/-- **C188.** A negative cell: the error is marked. -/
theorem C188_negative {E : Env} {r c : ℕ} {tab : ℕ → ℤ} {i j : ℕ} (hi : i < r) (hj : j < c) (hn : tab (i + j * r) < 0)
    {out : FOut} (h : fexact E r c tab = .ok out) : out.error = true := by
  unfold fexact at h
  by_cases h1 : grand r c tab = 0
  · rw [if_pos h1] at h; cases h; rfl
  rw [if_neg h1] at h
  by_cases h2 : ¬ RoomOK r c (grand r c tab)
  · rw [if_pos h2] at h; cases h
  rw [if_neg h2] at h
  by_cases h3 : c ≤ 1
  · rw [if_pos h3] at h; cases h; rfl
  rw [if_neg h3, if_pos ⟨i, hi, j, hj, hn⟩] at h
  cases h; rfl

/-- The tea-tasting table, and what is proved about it. -/
example (E : Env) (hE : EnvOrders E) (m : ℕ → ℕ → ℝ) (X : Table 2 2) (hX : X = ![![3, 1], ![1, 3]]) (hm : HoldsTable m X) :
    fisherExact E 2 2 m = .ok ⟨.num (prob X * Real.exp tolC), .num (pValue X), false⟩ := by
  have ht : total X = 8 := by subst hX; decide
  refine C187_two_columns_exact hE (le_refl 2) hm (by omega) (by omega) ?_
  unfold ways
  rw [if_neg (by omega)]
  unfold arrangements
  rw [ht]
  have hR : ∀ i, rowTot X i = 4 := by subst hX; decide
  simp only [hR]
  norm_num [Nat.factorial]

end Apop.Fisher
