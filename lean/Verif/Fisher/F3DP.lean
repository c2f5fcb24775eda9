import Verif.Fisher.F3Thms

/-! # The dynamic programming of f3xact -/

namespace Apop.Fisher.F3
open Apop Apop.Fisher Finset

/-- The node's length and some table for the rest of the rows and the node's columns
come to at most `B`. -/
def Has (B : ℝ) (rs ico : List ℤ) (v : ℝ) : Prop :=
  ∃ (r c : ℕ) (T : Table r c), Exch T ∧ rs = rowsZ T ∧ ico = colsZ T ∧ v + cellSum T ≤ B

/-- A pending node of that kind. -/
def Pend (B : ℝ) (kyy : ℤ) (rs : List ℤ) (nco : ℕ) (key : ℤ) (w : ℝ) : Prop :=
  2 ≤ rs.length ∧ ∃ ico, ico.length = nco ∧ (∀ x ∈ ico, x < kyy) ∧ keyOf kyy ico = key ∧ Has B rs ico w

/-- Either the minimum so far is at most `B`, or a pending node will lead to it. -/
def Inv (B : ℝ) (kyy : ℤ) (rs : List ℤ) (nco : ℕ) (st : S3) : Prop :=
  st.vmn ≤ B ∨ ∃ kw ∈ st.tab, Pend B kyy rs nco kw.1 kw.2

theorem Pend.lower {B : ℝ} {kyy : ℤ} {rs : List ℤ} {nco : ℕ} {key : ℤ} {w w' : ℝ} (h : Pend B kyy rs nco key w) (hw : w' ≤ w) :
    Pend B kyy rs nco key w' := by
  obtain ⟨h0, ico, h1, h2, h3, r, c, T, a, b, c', d⟩ := h
  exact ⟨h0, ico, h1, h2, h3, r, c, T, a, b, c', by linarith⟩

theorem upd_vmn (st : S3) (v : ℝ) : (st.upd v).vmn ≤ v ∧ (st.upd v).vmn ≤ st.vmn ∧ (st.upd v).tab = st.tab := by
  unfold S3.upd
  by_cases h : v < st.vmn
  · rw [if_pos h]; exact ⟨le_refl _, h.le, rfl⟩
  · rw [if_neg h]; exact ⟨not_lt.mp h, le_refl _, rfl⟩

/-- Nothing is lost: the minimum does not grow, and a pending node stays, possibly with
a smaller length. -/
def Keeps (st st' : S3) : Prop := st'.vmn ≤ st.vmn ∧ ∀ kw ∈ st.tab, ∃ w ≤ kw.2, (kw.1, w) ∈ st'.tab

theorem Keeps.refl (st : S3) : Keeps st st := ⟨le_refl _, fun kw h => ⟨kw.2, le_refl _, h⟩⟩

theorem Keeps.trans {a b c : S3} (h1 : Keeps a b) (h2 : Keeps b c) : Keeps a c := by
  refine ⟨h2.1.trans h1.1, fun kw h => ?_⟩
  obtain ⟨w, hw, hm⟩ := h1.2 kw h
  obtain ⟨w', hw', hm'⟩ := h2.2 _ hm
  exact ⟨w', hw'.trans hw, hm'⟩

theorem Inv.keeps {B : ℝ} {kyy : ℤ} {rs : List ℤ} {nco : ℕ} {st st' : S3} (h : Inv B kyy rs nco st) (hk : Keeps st st') :
    Inv B kyy rs nco st' := by
  rcases h with h | ⟨kw, hm, hp⟩
  · exact Or.inl (hk.1.trans h)
  · obtain ⟨w, hw, hm'⟩ := hk.2 kw hm
    exact Or.inr ⟨_, hm', hp.lower hw⟩

theorem pushTab_keeps (key : ℤ) (v : ℝ) (tab : List (ℤ × ℝ)) : ∀ kw ∈ tab, ∃ w ≤ kw.2, (kw.1, w) ∈ pushTab key v tab := by
  induction tab with
  | nil => intro kw h; cases h
  | cons p tab ih =>
    obtain ⟨k, u⟩ := p
    intro kw h
    unfold pushTab
    by_cases hk : k = key
    · rw [if_pos hk]
      rcases List.mem_cons.mp h with rfl | h
      · exact ⟨min v u, min_le_right _ _, List.mem_cons_self⟩
      · exact ⟨kw.2, le_refl _, List.mem_cons_of_mem _ h⟩
    · rw [if_neg hk]
      rcases List.mem_cons.mp h with rfl | h
      · exact ⟨u, le_refl _, List.mem_cons_self⟩
      · obtain ⟨w, hw, hm⟩ := ih kw h
        exact ⟨w, hw, List.mem_cons_of_mem _ hm⟩

theorem pushTab_has (key : ℤ) (v : ℝ) (tab : List (ℤ × ℝ)) : ∃ w ≤ v, (key, w) ∈ pushTab key v tab := by
  induction tab with
  | nil => exact ⟨v, le_refl _, by simp [pushTab]⟩
  | cons p tab ih =>
    obtain ⟨k, u⟩ := p
    unfold pushTab
    by_cases hk : k = key
    · rw [if_pos hk]
      exact ⟨min v u, min_le_left _ _, by simp [hk]⟩
    · rw [if_neg hk]
      obtain ⟨w, hw, hm⟩ := ih
      exact ⟨w, hw, List.mem_cons_of_mem _ hm⟩

theorem push_spec {kyy : ℤ} {it : List ℤ} {v : ℝ} {st st' : S3} (h : push kyy it v st = .ok st') :
    Keeps st st' ∧ ∃ w ≤ v, (keyOf kyy it, w) ∈ st'.tab := by
  unfold push at h
  by_cases h1 : (intMax : ℤ) < keyOf kyy it
  · rw [if_pos h1] at h; cases h
  · rw [if_neg h1] at h
    by_cases h2 : keyOf kyy it ∉ st.tab.map Prod.fst ∧ 200 ≤ st.tab.length
    · rw [if_pos h2] at h; cases h
    · rw [if_neg h2, Net.ok.injEq] at h
      subst h
      exact ⟨⟨le_refl _, pushTab_keeps _ _ _⟩, pushTab_has _ _ _⟩

theorem finish_spec {v : ℝ} {st st' : S3} {r : Res ℝ} (h : finish v st r = .ok st') :
    ∃ w, r = .ok w ∧ Keeps st st' ∧ st'.vmn ≤ v + w := by
  cases r with
  | ub => cases h
  | ok w =>
    simp only [finish, Net.ok.injEq] at h
    subst h
    obtain ⟨a, b, c⟩ := upd_vmn st (v + w)
    exact ⟨w, rfl, ⟨b, fun kw hk => ⟨kw.2, le_refl _, by rw [c]; exact hk⟩⟩, a⟩

theorem place_keeps {fact : Fact} {kyy nn : ℤ} {iro ico lb : List ℤ} {v : ℝ} {st st' : S3}
    (h : place fact kyy nn iro ico lb v st = .ok st') : Keeps st st' := by
  unfold place at h
  split at h
  · obtain ⟨_, _, k, _⟩ := finish_spec h; exact k
  · obtain ⟨_, _, k, _⟩ := finish_spec h; exact k
  · exact (push_spec h).1

theorem consider_keeps {fact : Fact} {kyy nn : ℤ} {iro ico lb : List ℤ} {val : ℝ} {st st' : S3}
    (h : consider fact kyy nn iro ico val lb st = .ok st') : Keeps st st' := by
  unfold consider at h
  split at h
  · cases h
  · exact place_keeps h

theorem considerAll_keeps {fact : Fact} {kyy nn : ℤ} {iro ico : List ℤ} {val : ℝ} {lbs : List (List ℤ)} :
    ∀ {st st' : S3}, considerAll fact kyy nn iro ico val lbs st = .ok st' → Keeps st st' := by
  induction lbs with
  | nil => intro st st' h; simp only [considerAll, Net.ok.injEq] at h; subst h; exact Keeps.refl _
  | cons lb lbs ih =>
    intro st st' h
    unfold considerAll at h
    split at h
    · rename_i st1 h1; exact (consider_keeps h1).trans (ih h)
    · cases h
    · cases h

theorem expand_keeps {fact : Fact} {kyy nn : ℤ} {iro ico : List ℤ} {val : ℝ} {st st' : S3}
    (h : expand fact kyy nn iro ico val st = .ok st') : Keeps st st' := by
  unfold expand at h
  split at h
  · cases h
  · exact considerAll_keeps h

theorem considerAll_mem {fact : Fact} {kyy nn : ℤ} {iro ico lb : List ℤ} {val : ℝ} {lbs : List (List ℤ)} {P : S3 → Prop}
    (hP : ∀ st st', P st → Keeps st st' → P st') (hlb : ∀ st st', consider fact kyy nn iro ico val lb st = .ok st' → P st') :
    ∀ {st st' : S3}, lb ∈ lbs → considerAll fact kyy nn iro ico val lbs st = .ok st' → P st' := by
  induction lbs with
  | nil => intro st st' h; cases h
  | cons l lbs ih =>
    intro st st' hm h
    unfold considerAll at h
    split at h
    · rename_i st1 h1
      rcases List.mem_cons.mp hm with rfl | hm
      · exact hP _ _ (hlb _ _ h1) (considerAll_keeps h)
      · exact ih hm h
    · cases h
    · cases h

theorem place_push {fact : Fact} {kyy nn : ℤ} {iro ico lb : List ℤ} {v : ℝ} {st : S3}
    (h2 : iro.length ≠ 2) (h3 : ¬(iro.length = 3 ∧ ico.length = 2)) :
    place fact kyy nn iro ico lb v st = push kyy (sortZ ((List.zipWith (· - ·) ico lb).map (max · 0))) v st := by
  unfold place
  split
  · simp at h2
  · simp at h3
  · rfl

theorem keyOf_append (kyy : ℤ) (l : List ℤ) (x : ℤ) : keyOf kyy (l ++ [x]) = x + keyOf kyy l * kyy := by
  simp [keyOf]

theorem decKey_keyOf {kyy : ℤ} (l : List ℤ) : ∀ acc, (∀ x ∈ l, 0 ≤ x ∧ x < kyy) →
    decKey kyy l.length (keyOf kyy l) acc = l ++ acc := by
  induction l using List.reverseRecOn with
  | nil => intro acc _; rfl
  | append_singleton l x ih =>
    intro acc h
    have hx := h x (by simp)
    have hl : ∀ y ∈ l, 0 ≤ y ∧ y < kyy := fun y hy => h y (by simp [hy])
    have hk : kyy ≠ 0 := by omega
    rw [keyOf_append, List.length_append]
    cases l with
    | nil => simp [decKey, keyOf]
    | cons a l =>
      rw [show (a :: l).length + [x].length = l.length + 2 by simp]
      unfold decKey
      rw [Int.add_mul_ediv_right _ _ hk, Int.ediv_eq_zero_of_lt hx.1 hx.2, Int.add_mul_emod_self_right,
        Int.emod_eq_of_lt hx.1 hx.2, zero_add]
      have := ih (x :: acc) hl
      rw [List.length_cons] at this
      rw [this]; simp

theorem two_spec {fact : Fact} (hf : FactOK fact) {T : Table 2 2} {w : ℝ}
    (h : two fact ((rowTot T 0 + rowTot T 1 : ℕ) + 2) (rowTot T 0) (colTot T 0) (colTot T 1) = .ok w) : w ≤ cellSum T := by
  unfold two at h
  split at h
  · cases h
  · have hc : cellSum T = four (rowTot T 0) (rowTot T 1) (colTot T 0) (T 0 0) := by
      unfold cellSum four rowTot colTot
      simp only [Fin.sum_univ_two]
      rw [show T 0 0 + T 0 1 - T 0 0 = T 0 1 by omega, show T 0 0 + T 1 0 - T 0 0 = T 1 0 by omega,
        show T 1 0 + T 1 1 - T 1 0 = T 1 1 by omega]
      ring
    have t0 : rowTot T 0 = T 0 0 + T 0 1 := by unfold rowTot; rw [Fin.sum_univ_two]
    have t1 : rowTot T 1 = T 1 0 + T 1 1 := by unfold rowTot; rw [Fin.sum_univ_two]
    have t2 : colTot T 0 = T 0 0 + T 1 0 := by unfold colTot; rw [Fin.sum_univ_two]
    have t3 : colTot T 1 = T 0 1 + T 1 1 := by unfold colTot; rw [Fin.sum_univ_two]
    have hm := four_mode (a := rowTot T 0) (b := rowTot T 1) (c := colTot T 0) (by omega) (x := T 0 0) (by omega) (by omega) (by omega)
    obtain ⟨m1, m2, m3⟩ := mode_range (a := rowTot T 0) (b := rowTot T 1) (c := colTot T 0) (by omega)
    have hd : Int.tdiv (((rowTot T 0 : ℤ) + 1) * ((colTot T 0 : ℤ) + 1)) ((rowTot T 0 + rowTot T 1 : ℕ) + 2)
        = (((rowTot T 0 + 1) * (colTot T 0 + 1) / (rowTot T 0 + rowTot T 1 + 2) : ℕ) : ℤ) := by
      rw [Int.tdiv_eq_ediv_of_nonneg (by positivity)]
      push_cast; rfl
    rw [hd] at h
    generalize hn : (rowTot T 0 + 1) * (colTot T 0 + 1) / (rowTot T 0 + rowTot T 1 + 2) = n at *
    have e : [(n : ℤ), rowTot T 0 - n, colTot T 0 - n, colTot T 1 - (rowTot T 0 - n)]
        = [n, rowTot T 0 - n, colTot T 0 - n, rowTot T 1 - (colTot T 0 - n)].map (fun x : ℕ => (x : ℤ)) := by
      simp only [List.map_cons, List.map_nil, List.cons.injEq, and_true, true_and]
      refine ⟨by omega, by omega, by omega⟩
    rw [e] at h
    rw [sumFact_spec hf h, hc]
    simp only [List.map_cons, List.map_nil, List.sum_cons, List.sum_nil]
    unfold four at hm ⊢
    linarith

/-- What is done with the first row of the table leads to at most `B`. -/
theorem consider_right {fact : Fact} (hf : FactOK fact) {B : ℝ} {kyy : ℤ} {r c : ℕ} {T : Table (r + 1) c} {val : ℝ}
    (hT : Exch T) (hB : val + cellSum T ≤ B) (hr : 1 ≤ r) (hk : ∀ x ∈ colsZ T, x < kyy) {st st' : S3}
    (h : consider fact kyy (rowsZ T).sum (rowsZ T) (colsZ T) val (List.ofFn (fun j => (T 0 j : ℤ))) st = .ok st') :
    Inv B kyy (rowsZ T).tail c st' := by
  unfold consider at h
  split at h
  · cases h
  · rename_i s hs
    have hs' : s = ∑ j, lf (T 0 j) := by
      have e : List.ofFn (fun j => (T 0 j : ℤ)) = (List.ofFn (T 0)).map (fun x : ℕ => (x : ℤ)) := by rw [List.map_ofFn]; rfl
      rw [e] at hs
      rw [sumFact_spec hf hs, sum_ofFn_map]
    rw [cellSum_succ] at hB
    by_cases h2 : r = 1
    · subst h2
      have e : rowsZ T = [(rowTot T 0 : ℤ), (rowTot T 1 : ℤ)] := by simp [rowsZ]
      rw [e] at h
      simp only [place] at h
      rw [zip_left] at h
      obtain ⟨w, hw, hk', hv⟩ := finish_spec h
      have e2 : colsZ (tailT T) = (List.ofFn (fun j => T 1 j)).map (fun x : ℕ => (x : ℤ)) := by
        unfold colsZ
        rw [List.map_ofFn]
        congr 1
      rw [e2] at hw
      have hw' := sumFact_spec hf hw
      rw [sum_ofFn_map] at hw'
      have e3 : cellSum (tailT T) = ∑ j, lf (T 1 j) := by
        unfold cellSum; rw [Fin.sum_univ_one]; rfl
      left
      linarith
    · by_cases h3 : r = 2 ∧ c = 2
      · obtain ⟨rfl, rfl⟩ := h3
        have e : rowsZ T = [(rowTot T 0 : ℤ), (rowTot T 1 : ℤ), (rowTot T 2 : ℤ)] := by
          simp [rowsZ, List.ofFn_succ]
        have e1 : colsZ T = [(colTot T 0 : ℤ), (colTot T 1 : ℤ)] := by simp [colsZ]
        have e2 : List.ofFn (fun j => (T 0 j : ℤ)) = [(T 0 0 : ℤ), (T 0 1 : ℤ)] := by simp
        rw [e, e1, e2] at h
        simp only [place] at h
        obtain ⟨w, hw, hk', hv⟩ := finish_spec h
        have hw' : two fact ((rowTot (tailT T) 0 + rowTot (tailT T) 1 : ℕ) + 2) (rowTot (tailT T) 0) (colTot (tailT T) 0) (colTot (tailT T) 1)
            = .ok w := by
          rw [← hw]
          have a1 : rowTot (tailT T) 0 = rowTot T 1 := rfl
          have a2 : rowTot (tailT T) 1 = rowTot T 2 := rfl
          have a3 : (colTot (tailT T) 0 : ℤ) = colTot T 0 - T 0 0 := by rw [colTot_succ T 0]; push_cast; ring
          have a4 : (colTot (tailT T) 1 : ℤ) = colTot T 1 - T 0 1 := by rw [colTot_succ T 1]; push_cast; ring
          rw [a1, a2, a3, a4]
          congr 1
          simp only [List.sum_cons, List.sum_nil]; push_cast; ring
        have := two_spec hf hw'
        left
        linarith
      · rw [place_push (by rw [rowsZ_length]; omega) (by rw [rowsZ_length, colsZ_length]; omega), zip_left] at h
        obtain ⟨_, w, hw, hm⟩ := push_spec h
        have e : (colsZ (tailT T)).map (max · 0) = colsZ (tailT T) := by
          unfold colsZ
          rw [List.map_ofFn]
          congr 1; funext j
          simp
        rw [e] at hm
        obtain ⟨σ, hσ⟩ := sortZ_ofFn (fun j => (colTot (tailT T) j : ℤ))
        have hσ' : sortZ (colsZ (tailT T)) = colsZ (perm σ (tailT T)) := hσ
        right
        refine ⟨_, hm, ?_, sortZ (colsZ (tailT T)), ?_, ?_, rfl, r, c, perm σ (tailT T), (hT.tail).perm σ, ?_, hσ', ?_⟩
        · rw [List.length_tail, rowsZ_length]; omega
        · rw [hσ', colsZ_length]
        · intro x hx
          have hx' : x ∈ colsZ (tailT T) := (List.perm_insertionSort (· ≤ ·) (colsZ (tailT T))).mem_iff.mp hx
          unfold colsZ at hx'
          rw [List.mem_ofFn] at hx'
          obtain ⟨j, rfl⟩ := hx'
          have := hk (colTot T j) (by unfold colsZ; rw [List.mem_ofFn]; exact ⟨j, rfl⟩)
          rw [colTot_succ] at this
          push_cast at this
          omega
        · rw [rowsZ_succ, rowsZ_perm]; rfl
        · rw [cellSum_perm]
          show w + _ ≤ B
          linarith

theorem expand_spec {fact : Fact} (hf : FactOK fact) {B : ℝ} {kyy : ℤ} {iro ico : List ℤ} {val : ℝ} (hH : Has B iro ico val)
    (hr : 2 ≤ iro.length) (hc : 1 ≤ ico.length) (hk : ∀ x ∈ ico, x < kyy) {st st' : S3}
    (h : expand fact kyy iro.sum iro ico val st = .ok st') : Inv B kyy iro.tail ico.length st' := by
  obtain ⟨r, c, T, hT, rfl, rfl, hB⟩ := hH
  rw [rowsZ_length] at hr
  rw [colsZ_length] at hc ⊢
  obtain ⟨r, rfl⟩ : ∃ r', r = r' + 1 := ⟨r - 1, by omega⟩
  unfold expand at h
  split at h
  · cases h
  · rename_i lbs hl
    have e1 : ((rowsZ T).length : ℤ) - 1 = (r : ℤ) := by rw [rowsZ_length]; push_cast; ring
    have e2 : (rowsZ T).headD 0 = (((colsOf T).map Prod.fst).sum : ℕ) := by rw [colsOf_fst, rowsZ_succ]; rfl
    have e3 : (rowsZ T).sum = (((colsOf T).map Col1.tot).sum : ℕ) := by rw [colsOf_tot, rowsZ_sum]
    rw [e1, e2, e3, ← colsOf_totZ] at hl
    have hne : colsOf T ≠ [] := by
      intro e
      have := congrArg List.length e
      simp [colsOf] at this; omega
    have hmem := mem_candidates hne (colsOf_fair hT) hl
    rw [colsOf_topZ] at hmem
    exact considerAll_mem (P := Inv B kyy (rowsZ T).tail c) (fun _ _ a b => a.keeps b)
      (fun _ _ hcon => consider_right hf hT hB (by omega) hk hcon) hmem h

theorem popOne_keeps {fact : Fact} {kyy nn big : ℤ} {iro ico : List ℤ} {val : ℝ} {st st' : S3}
    (h : popOne fact kyy nn big iro ico val st = .ok st') : Keeps st st' := by
  unfold popOne at h
  split at h
  · cases h
  · rename_i d _
    simp only [Net.ok.injEq] at h
    subst h
    obtain ⟨_, b, c⟩ := upd_vmn st (val + d)
    exact ⟨b, fun kw hk => ⟨kw.2, le_refl _, by rw [c]; exact hk⟩⟩
  · exact expand_keeps h

theorem popOne_spec {fact : Fact} (hf : FactOK fact) {B : ℝ} {kyy big : ℤ} {iro ico : List ℤ} {val : ℝ} (hH : Has B iro ico val)
    (hr : 2 ≤ iro.length) (hc : 1 ≤ ico.length) (hk : ∀ x ∈ ico, x < kyy) {st st' : S3}
    (h : popOne fact kyy iro.sum big iro ico val st = .ok st') : Inv B kyy iro.tail ico.length st' := by
  unfold popOne at h
  split at h
  · cases h
  · rename_i d hd
    simp only [Net.ok.injEq] at h
    subst h
    obtain ⟨r, c, T, hT, rfl, rfl, hB⟩ := hH
    have := optimal_spec hf hd
    left
    exact le_trans (upd_vmn st (val + d)).1 (by linarith)
  · exact expand_spec hf hH hr hc hk h

theorem popAll_keeps {fact : Fact} {kyy nn big : ℤ} {nco : ℕ} {iro : List ℤ} {ns : List (ℤ × ℝ)} :
    ∀ {st st' : S3}, popAll fact kyy nn big nco iro ns st = .ok st' → Keeps st st' := by
  induction ns with
  | nil => intro st st' h; simp only [popAll, Net.ok.injEq] at h; subst h; exact Keeps.refl _
  | cons n ns ih =>
    obtain ⟨key, val⟩ := n
    intro st st' h
    unfold popAll at h
    split at h
    · rename_i st1 h1; exact (popOne_keeps h1).trans (ih h)
    · cases h
    · cases h

theorem Has.nonneg {B : ℝ} {rs ico : List ℤ} {v : ℝ} (h : Has B rs ico v) : ∀ x ∈ ico, 0 ≤ x := by
  obtain ⟨r, c, T, hT, rfl, rfl, hB⟩ := h
  intro x hx
  unfold colsZ at hx
  rw [List.mem_ofFn] at hx
  obtain ⟨j, rfl⟩ := hx
  omega

theorem popAll_spec {fact : Fact} (hf : FactOK fact) {B : ℝ} {kyy big : ℤ} {nco : ℕ} {iro : List ℤ} (hc : 1 ≤ nco) {ns : List (ℤ × ℝ)} :
    ∀ {st st' : S3}, (∃ kw ∈ ns, Pend B kyy iro nco kw.1 kw.2) →
    popAll fact kyy iro.sum big nco iro ns st = .ok st' → Inv B kyy iro.tail nco st' := by
  induction ns with
  | nil => rintro st st' ⟨_, h, _⟩; cases h
  | cons n ns ih =>
    obtain ⟨key, val⟩ := n
    rintro st st' ⟨kw, hm, hp⟩ h
    unfold popAll at h
    split at h
    · rename_i st1 h1
      rcases List.mem_cons.mp hm with rfl | hm
      · obtain ⟨hr, ico, hl, hk, hkey, hH⟩ := hp
        simp only [] at hkey hH
        have hd : decKey kyy nco key [] = ico := by
          rw [← hkey, ← hl, decKey_keyOf ico [] (fun x hx => ⟨hH.nonneg x hx, hk x hx⟩), List.append_nil]
        rw [hd] at h1
        have := popOne_spec hf hH hr (by omega) hk h1
        rw [hl] at this
        exact this.keeps (popAll_keeps h)
      · exact ih ⟨kw, hm, hp⟩ h
    · cases h
    · cases h

theorem levels_spec {fact : Fact} (hf : FactOK fact) {B : ℝ} {kyy : ℤ} {nco : ℕ} {all : List ℤ} (hc : 1 ≤ nco) {rem : List ℤ} :
    ∀ {st : S3} {v : ℝ}, Inv B kyy rem.tail nco st → levels fact kyy nco all rem rem.sum st = .ok v → v ≤ B := by
  induction rem with
  | nil =>
    intro st v hi h
    simp only [levels, Net.ok.injEq] at h
    subst h
    rcases hi with hi | ⟨kw, _, hp⟩
    · exact hi
    · have := hp.1; simp at this
  | cons r rs ih =>
    intro st v hi h
    unfold levels at h
    have hsum : (r :: rs).sum - r = rs.sum := by simp
    rw [hsum] at h
    rw [List.tail_cons] at hi
    split at h
    · rename_i hcond
      split at h
      · rename_i st' hpop
        refine ih ?_ h
        rcases hi with hi | ⟨kw, hm, hp⟩
        · exact Or.inl ((popAll_keeps hpop).1.trans hi)
        · exact popAll_spec hf hc ⟨kw, by simpa using hm, hp⟩ hpop
      · cases h
      · cases h
    · rename_i hcond
      simp only [Net.ok.injEq] at h
      subst h
      rcases hi with hi | ⟨kw, hm, hp⟩
      · exact hi
      · exfalso
        refine hcond ⟨?_, ?_⟩
        · have := hp.1; simp; omega
        · rintro e; rw [e] at hm; cases hm

theorem dp_spec {fact : Fact} (hf : FactOK fact) {r c : ℕ} {T : Table r c} (hT : Exch T) (hr : 2 ≤ r) (hc : 1 ≤ c)
    (hsort : (colsZ T).Pairwise (· ≤ ·)) {v : ℝ} (h : dp fact (rowsZ T).sum (rowsZ T) (colsZ T) = .ok v) : v ≤ cellSum T := by
  have hk : ∀ x ∈ colsZ T, x < (colsZ T).getLastD 0 + 1 := by
    intro x hx
    have hne : colsZ T ≠ [] := List.ne_nil_of_mem hx
    have : x ≤ (colsZ T).getLast hne := by
      have h2 := hsort
      rw [← List.dropLast_append_getLast hne, List.pairwise_append] at h2
      rw [← List.dropLast_append_getLast hne, List.mem_append] at hx
      rcases hx with hx | hx
      · exact h2.2.2 x hx _ (by simp)
      · simp only [List.mem_singleton] at hx; rw [← hx]
    rw [List.getLastD_eq_getLast?, List.getLast?_eq_some_getLast hne]
    simp only [Option.getD_some]
    omega
  unfold dp at h
  split at h
  · rename_i st he
    have hH : Has (cellSum T) (rowsZ T) (colsZ T) 0 := ⟨r, c, T, hT, rfl, rfl, by linarith⟩
    have := expand_spec hf hH (by rw [rowsZ_length]; exact hr) (by rw [colsZ_length]; exact hc) hk he
    exact levels_spec hf (by rw [colsZ_length]; exact hc) this h
  · cases h
  · cases h

end Apop.Fisher.F3
