import Verif.Fisher.Walk

/-! # The generator visits every column that fits, once -/

namespace Apop.Fisher
open Finset

theorem top_succ (imax : ℕ → ℕ) (r n : ℕ) :
    top imax (r + 1) n = upd (top imax r (n - min n (imax (r + 1)))) (r + 1) (min n (imax (r + 1))) := rfl

theorem top_zero (imax : ℕ → ℕ) : ∀ r, top imax r 0 = fun _ => 0 := by
  intro r
  induction r with
  | zero => rfl
  | succ r ih =>
    rw [top_succ]
    rw [Nat.zero_min, Nat.sub_zero, ih]
    exact upd_self rfl

/-- What `fill` leaves behind. -/
theorem fill_spec (imax : ℕ → ℕ) : ∀ (k n : ℕ) (d : ℕ → ℕ), 1 ≤ k → (∀ i, 1 ≤ i → i ≤ k → d i = 0) →
    (fill imax k n d).2.2 = (fun i => if 1 ≤ i ∧ i ≤ k then top imax k n i else d i)
    ∧ (fill imax k n d).2.1 = n - low imax k
    ∧ (0 < n → n ≤ low imax k → 1 ≤ (fill imax k n d).1 ∧ (fill imax k n d).1 ≤ k
      ∧ 0 < top imax k n (fill imax k n d).1
      ∧ ∀ i, 1 ≤ i → i < (fill imax k n d).1 → top imax k n i = 0) := by
  intro k
  induction k with
  | zero => intro n d h; omega
  | succ k ih =>
    intro n d _ hz
    unfold fill
    by_cases hc : 0 < n - min n (imax (k + 1)) ∧ k ≠ 0
    · rw [if_pos hc]
      have hz' : ∀ i, 1 ≤ i → i ≤ k → upd d (k + 1) (min n (imax (k + 1))) i = 0 :=
        fun i h1 h2 => by rw [upd_ne _ (by omega)]; exact hz i h1 (by omega)
      obtain ⟨e1, e2, e3⟩ := ih (n - min n (imax (k + 1))) _ (by omega) hz'
      refine ⟨?_, ?_, ?_⟩
      · rw [e1]
        funext i
        rw [top_succ]
        by_cases h1 : i = k + 1
        · subst h1
          rw [if_neg (by omega), if_pos (by omega), upd_same, upd_same]
        · rw [upd_ne _ h1, upd_ne _ h1]
          by_cases h2 : 1 ≤ i ∧ i ≤ k
          · rw [if_pos h2, if_pos (by omega)]
          · rw [if_neg h2, if_neg (by omega)]
      · rw [e2, low_succ]; omega
      · intro h0 hn
        rw [low_succ] at hn
        obtain ⟨a, b, c, e⟩ := e3 hc.1 (by omega)
        refine ⟨a, by omega, ?_, fun i h1 h2 => ?_⟩
        · rw [top_succ, upd_ne _ (by omega)]; exact c
        · rw [top_succ, upd_ne _ (by omega)]; exact e i h1 h2
    · rw [if_neg hc]
      by_cases hk : k = 0
      · subst hk
        refine ⟨?_, ?_, ?_⟩
        · funext i
          rw [top_succ]
          show upd d (0 + 1) (min n (imax (0 + 1))) i = _
          by_cases h1 : i = 0 + 1
          · subst h1
            rw [if_pos (by omega), upd_same, upd_same]
          · rw [upd_ne _ h1, if_neg (by omega)]
        · rw [low_succ, low_zero]; show n - min n (imax 1) = n - (0 + imax 1); omega
        · intro h0 hn
          rw [low_succ, low_zero] at hn
          refine ⟨by simp, by simp, ?_, fun i h1 h2 => by simp at h2; omega⟩
          rw [top_succ]
          simp only [upd_same]
          omega
      · have hle : n ≤ imax (k + 1) := by
          by_contra hcon
          exact hc ⟨by omega, hk⟩
        have hmin : min n (imax (k + 1)) = n := min_eq_left hle
        have htop : top imax (k + 1) n = upd (fun _ => 0) (k + 1) n := by
          rw [top_succ]
          rw [hmin, Nat.sub_self, top_zero]
        rw [hmin, htop]
        refine ⟨?_, ?_, ?_⟩
        · funext i
          by_cases h1 : i = k + 1
          · subst h1
            rw [if_pos (by omega), upd_same]
            exact upd_same _ _ _
          · rw [upd_ne _ h1]
            show upd d (k + 1) n i = _
            rw [upd_ne _ h1]
            by_cases h2 : 1 ≤ i ∧ i ≤ k + 1
            · rw [if_pos h2]; exact hz i h2.1 h2.2
            · rw [if_neg h2]
        · rw [low_succ]; show n - n = _; omega
        · intro h0 hn
          refine ⟨by simp, le_refl _, ?_, fun i h1 h2 => ?_⟩
          · show 0 < upd _ (k + 1) n (k + 1); rw [upd_same]; exact h0
          · have : i ≠ k + 1 := by simp at h2; omega
            rw [upd_ne _ this]

theorem findNZ_spec (d : ℕ → ℕ) : ∀ c k,
    (findNZ d c k = .none ∧ ∀ i, k < i → i ≤ k + c → d i = 0)
    ∨ (∃ kk, findNZ d c k = .some kk ∧ k < kk ∧ kk ≤ k + c ∧ 0 < d kk ∧ ∀ i, k < i → i < kk → d i = 0) := by
  intro c
  induction c with
  | zero => intro k; left; exact ⟨rfl, fun i h1 h2 => by omega⟩
  | succ c ih =>
    intro k
    unfold findNZ
    by_cases h : 0 < d (k + 1)
    · rw [if_pos h]
      right
      exact ⟨k + 1, rfl, by omega, by omega, h, fun i h1 h2 => by omega⟩
    · rw [if_neg h]
      rcases ih (k + 1) with ⟨e1, e2⟩ | ⟨kk, e1, e2, e3, e4, e5⟩
      · left
        refine ⟨e1, fun i h1 h2 => ?_⟩
        by_cases hi : i = k + 1
        · rw [hi]; omega
        · exact e2 i (by omega) (by omega)
      · right
        refine ⟨kk, e1, by omega, by omega, e4, fun i h1 h2 => ?_⟩
        by_cases hi : i = k + 1
        · rw [hi]; omega
        · exact e5 i (by omega) h2

/-- What f7xact relies on from one call to the next. -/
structure GI (imax : ℕ → ℕ) (g : Gen) : Prop where
  pos : 0 < g.d g.k
  one : 1 ≤ g.k
  below : ∀ i, 1 ≤ i → i < g.k → g.d i = 0
  ks1 : g.ks ≠ 0 → ∀ i, 1 ≤ i → i < g.k → i < g.ks → imax i = 0
  ks2 : g.ks ≠ 0 → g.ks < g.k → 0 < imax g.ks

theorem low_zero_of {v : ℕ → ℕ} {k : ℕ} (h : ∀ i, 1 ≤ i → i ≤ k → v i = 0) : low v k = 0 := by
  unfold low
  refine Finset.sum_eq_zero (fun i hi => h _ (by omega) ?_)
  have := Finset.mem_range.mp hi; omega

theorem low_le {v imax : ℕ → ℕ} {k : ℕ} (h : ∀ i, 1 ≤ i → i ≤ k → v i ≤ imax i) : low v k ≤ low imax k := by
  unfold low
  refine Finset.sum_le_sum (fun i hi => h _ (by omega) ?_)
  have := Finset.mem_range.mp hi; omega

theorem low_full {v imax : ℕ → ℕ} {k : ℕ} (h : ∀ i, 1 ≤ i → i ≤ k → v i ≤ imax i)
    (he : low imax k ≤ low v k) : ∀ i, 1 ≤ i → i ≤ k → v i = imax i := by
  induction k with
  | zero => intro i h1 h2; omega
  | succ k ih =>
    rw [low_succ, low_succ] at he
    have hl := low_le (k := k) (fun i h1 h2 => h i h1 (by omega))
    have hk := h (k + 1) (by omega) (le_refl _)
    intro i h1 h2
    by_cases hi : i = k + 1
    · rw [hi]; omega
    · exact ih (fun i h1 h2 => h i h1 (by omega)) (by omega) i h1 (by omega)

theorem low_mono (v : ℕ → ℕ) {j k : ℕ} (h : j ≤ k) : low v j ≤ low v k := by
  unfold low
  exact Finset.sum_le_sum_of_subset (fun i hi => by
    have := Finset.mem_range.mp hi; exact Finset.mem_range.mpr (by omega))

theorem low_clear (d : ℕ → ℕ) {j k : ℕ} (h : j ≤ k) : low (clear d k) j = 0 :=
  low_zero_of (fun i h1 h2 => by unfold clear; rw [if_pos (by omega)])

theorem low_ext {v : ℕ → ℕ} {k m : ℕ} (h : k ≤ m) (hz : ∀ i, k < i → i ≤ m → v i = 0) : low v m = low v k := by
  induction m with
  | zero => have : k = 0 := by omega
            rw [this]
  | succ m ih =>
    by_cases hk : k = m + 1
    · rw [hk]
    · rw [low_succ, hz (m + 1) (by omega) (le_refl _), ih (by omega) (fun i h1 h2 => hz i h1 (by omega))]
      omega

theorem top_full (imax : ℕ → ℕ) : ∀ r n : ℕ, low imax r ≤ n → ∀ i, 1 ≤ i → i ≤ r → top imax r n i = imax i := by
  intro r
  induction r with
  | zero => intro n _ i h1 h2; omega
  | succ r ih =>
    intro n hn i h1 h2
    rw [low_succ] at hn
    rw [top_succ]
    by_cases hi : i = r + 1
    · subst hi; rw [upd_same]; omega
    · rw [upd_ne _ hi]; exact ih _ (by omega) i h1 (by omega)

theorem ksFind_spec (imax d : ℕ → ℕ) (k : ℕ) : ∀ fuel ks, ks ≤ k → k + 1 ≤ ks + fuel →
    ks < ksFind imax d k fuel ks ∧ ksFind imax d k fuel ks ≤ k + 1
    ∧ (∀ i, ks < i → i < ksFind imax d k fuel ks → imax i ≤ d i)
    ∧ (ksFind imax d k fuel ks ≤ k → d (ksFind imax d k fuel ks) < imax (ksFind imax d k fuel ks)) := by
  intro fuel
  induction fuel with
  | zero => intro ks h1 h2; omega
  | succ fuel ih =>
    intro ks h1 h2
    unfold ksFind
    by_cases hk : k < ks + 1
    · rw [if_pos hk]
      exact ⟨by omega, by omega, fun i a b => by omega, fun h => by omega⟩
    · rw [if_neg hk]
      by_cases hf : imax (ks + 1) ≤ d (ks + 1)
      · rw [if_pos hf]
        obtain ⟨a, b, c, e⟩ := ih (ks + 1) (by omega) (by omega)
        refine ⟨by omega, b, fun i h3 h4 => ?_, e⟩
        by_cases hi : i = ks + 1
        · rw [hi]; exact hf
        · exact c i (by omega) h4
      · rw [if_neg hf]
        exact ⟨by omega, by omega, fun i a b => by omega, fun _ => by omega⟩

/-- The part of f7xact labelled Loop. -/
theorem f7Loop_spec {imax : ℕ → ℕ} {r n : ℕ} : ∀ (fuel : ℕ) (d : ℕ → ℕ) (k : ℕ), Fits imax r n d → 1 ≤ k → k ≤ r →
    r < k + fuel → (∀ j, 1 ≤ j → j ≤ k → ¬ Can imax d j) →
    (f7Loop r imax fuel d k = .none ∧ Last imax r d)
    ∨ (∃ g, f7Loop r imax fuel d k = .some g ∧ Next imax r d g.d ∧ GI imax g) := by
  intro fuel
  induction fuel with
  | zero => intro d k _ _ h1 h2; omega
  | succ fuel ih =>
    intro d k hf hk hkr hfu hno
    unfold f7Loop
    rcases findNZ_spec d (r - k) k with ⟨e1, e2⟩ | ⟨kk, e1, e2, e3, e4, e5⟩
    · rw [e1]
      left
      refine ⟨rfl, fun j h1 h2 hc => ?_⟩
      by_cases hj : j ≤ k
      · exact hno j h1 hj hc
      · have := e2 j (by omega) (by omega)
        have := hc.1
        omega
    · rw [e1]
      have hkkr : kk ≤ r := by omega
      have hz : ∀ i, 1 ≤ i → i ≤ kk - 1 → clear d k i = 0 := by
        intro i h1 h2
        unfold clear
        by_cases h3 : i ≤ k
        · rw [if_pos ⟨h1, h3⟩]
        · rw [if_neg (by omega)]; exact e5 i (by omega) (by omega)
      have hlow : low d (kk - 1) = low d k := low_ext (by omega) (fun i h1 h2 => e5 i h1 (by omega))
      obtain ⟨f1, f2, f3⟩ := fill_spec imax (kk - 1) (1 + low d k) (clear d k) (by omega) hz
      have f1' : ∀ i, (fill imax (kk - 1) (1 + low d k) (clear d k)).2.2 i
          = if 1 ≤ i ∧ i ≤ kk - 1 then top imax (kk - 1) (1 + low d k) i else clear d k i :=
        fun i => congrFun f1 i
      have hno' : ∀ j, 1 ≤ j → j < kk → ¬ Can imax d j := by
        intro j h1 h2 hc
        by_cases hj : j ≤ k
        · exact hno j h1 hj hc
        · have := e5 j (by omega) h2
          have := hc.1
          omega
      simp only []
      by_cases hleft : 0 < (fill imax (kk - 1) (1 + low d k) (clear d k)).2.1
      · rw [if_pos hleft]
        rw [f2] at hleft
        have hno2 : ∀ j, 1 ≤ j → j ≤ kk → ¬ Can imax d j := by
          intro j h1 h2 hc
          by_cases hj : j < kk
          · exact hno' j h1 hj hc
          · obtain rfl : j = kk := by omega
            have := hc.2
            rw [hlow] at this
            omega
        have hsame : (fill imax (kk - 1) (1 + low d k) (clear d k)).2.2 = d := by
          rw [f1]
          have hfull := low_full (v := d) (imax := imax) (k := kk - 1) (fun i h1 h2 => hf.le i h1 (by omega))
            (by rw [hlow]; omega)
          funext i
          by_cases hi : 1 ≤ i ∧ i ≤ kk - 1
          · rw [if_pos hi, top_full _ _ _ (by omega) i hi.1 hi.2, hfull i hi.1 hi.2]
          · rw [if_neg hi]
            unfold clear
            rw [if_neg (by omega)]
        by_cases hkk : kk ≠ r
        · rw [if_pos hkk, hsame]
          exact ih d kk hf (by omega) hkkr (by omega) hno2
        · rw [if_neg hkk]
          left
          have : kk = r := by omega
          rw [← this]
          exact ⟨rfl, hno2⟩
      · rw [if_neg hleft]
        right
        rw [f2] at hleft
        obtain ⟨g1, g2, g3, g4⟩ := f3 (by omega) (by omega)
        have hkkv : (fill imax (kk - 1) (1 + low d k) (clear d k)).2.2 kk = d kk := by
          rw [f1', if_neg (by omega)]
          unfold clear
          rw [if_neg (by omega)]
        have hres : upd (fill imax (kk - 1) (1 + low d k) (clear d k)).2.2 kk
            ((fill imax (kk - 1) (1 + low d k) (clear d k)).2.2 kk - 1) = give imax d kk := by
          funext i
          rw [hkkv]
          unfold give
          by_cases h1 : i = kk
          · subst h1
            rw [upd_same, if_neg (by omega), if_pos rfl]
          · rw [upd_ne _ h1, f1', if_neg h1, hlow, Nat.add_comm (low d k) 1]
            by_cases h2 : i < kk
            · rw [if_pos h2]
              by_cases h3 : 1 ≤ i
              · rw [if_pos (by omega)]
              · have h0 : i = 0 := by omega
                subst h0
                rw [if_neg (by omega), top_out _ _ _ _ (by omega)]
                unfold clear
                rw [if_neg (by omega)]
                exact hf.out 0 (by omega)
            · rw [if_neg h2, if_neg (by omega)]
              unfold clear
              rw [if_neg (by omega)]
        rw [hres]
        have hgive : ∀ i, 1 ≤ i → i < kk → give imax d kk i = top imax (kk - 1) (1 + low d k) i := by
          intro i h1 h2
          unfold give
          rw [if_pos h2, hlow, Nat.add_comm]
        obtain ⟨k1, k2, k3, k4⟩ := ksFind_spec imax (give imax d kk)
          (fill imax (kk - 1) (1 + low d k) (clear d k)).1 (kk + 1) 0 (by omega) (by omega)
        refine ⟨_, rfl, ⟨kk, by omega, hkkr, ⟨e4, by rw [hlow]; omega⟩, hno', rfl⟩, ?_⟩
        refine ⟨?_, g1, fun i h1 h2 => ?_, fun _ i h1 h2 h3 => ?_, fun _ h => ?_⟩
        · show 0 < give imax d kk _
          rw [hgive _ g1 (by omega)]; exact g3
        · show give imax d kk i = 0
          simp only [] at h2
          rw [hgive i h1 (by omega)]; exact g4 i h1 h2
        · have := k3 i (by omega) h3
          simp only [] at h2
          rw [hgive i h1 (by omega), g4 i h1 h2] at this
          omega
        · simp only [] at h ⊢
          have := k4 (by omega)
          omega

theorem kDown_spec {imax : ℕ → ℕ} : ∀ {k : ℕ}, (∃ i, 1 ≤ i ∧ i < k ∧ 0 < imax i) →
    ∃ k', kDown imax k = .ok k' ∧ 1 ≤ k' ∧ k' < k ∧ 0 < imax k' ∧ ∀ i, k' < i → i < k → imax i = 0 := by
  intro k
  induction k with
  | zero => rintro ⟨i, h1, h2, _⟩; omega
  | succ k ih =>
    rintro ⟨i, h1, h2, h3⟩
    unfold kDown
    rw [if_neg (by omega)]
    by_cases h : imax k = 0
    · rw [if_pos h]
      have : i ≠ k := by rintro rfl; omega
      obtain ⟨k', a, b, c, e, f⟩ := ih ⟨i, h1, by omega, h3⟩
      refine ⟨k', a, b, by omega, e, fun j j1 j2 => ?_⟩
      by_cases hj : j = k
      · rw [hj]; exact h
      · exact f j j1 (by omega)
    · rw [if_neg h]
      exact ⟨k, rfl, by omega, by omega, by omega, fun j j1 j2 => by omega⟩

theorem top_one (imax : ℕ → ℕ) : ∀ {r k' : ℕ}, 1 ≤ k' → k' ≤ r → 0 < imax k' → (∀ i, k' < i → i ≤ r → imax i = 0) →
    top imax r 1 = upd (fun _ => 0) k' 1 := by
  intro r
  induction r with
  | zero => intro k' h1 h2; omega
  | succ r ih =>
    intro k' h1 h2 h3 h4
    rw [top_succ]
    by_cases hk : k' = r + 1
    · subst hk
      rw [min_eq_left (by omega), Nat.sub_self, top_zero]
    · rw [h4 (r + 1) (by omega) (le_refl _), Nat.min_zero, Nat.sub_zero, ih h1 (by omega) h3 (fun i a b => h4 i a (by omega))]
      exact upd_self (upd_ne _ (by omega))

/-- f7xact with `ks` known. -/
theorem f7Known_spec {imax : ℕ → ℕ} {r n : ℕ} {g : Gen} (hf : Fits imax r n g.d) (hg : GI imax g) (hk : g.k ≤ r)
    (hks : g.ks ≠ 0) :
    (f7Known r imax g = .ok .none ∧ Last imax r g.d)
    ∨ (∃ g', f7Known r imax g = .ok (.some g') ∧ Next imax r g.d g'.d ∧ GI imax g') := by
  unfold f7Known
  by_cases hc : 0 < g.d g.k ∧ g.ks < g.k
  · rw [if_pos hc]
    right
    obtain ⟨k', a, b, c, e, f⟩ := kDown_spec (imax := imax) (k := g.k) ⟨g.ks, by omega, hc.2, hg.ks2 hks hc.2⟩
    have hd : upd g.d g.k (g.d g.k - 1) k' = 0 := by
      rw [upd_ne _ (by omega)]; exact hg.below k' b c
    have hm : mDown imax (upd g.d g.k (g.d g.k - 1)) k' = .ok k' := by
      obtain ⟨m, rfl⟩ : ∃ m, k' = m + 1 := ⟨k' - 1, by omega⟩
      unfold mDown
      rw [if_neg (by omega)]
    have hksk : g.ks ≤ k' := by
      by_contra hcon
      have := f g.ks (by omega) hc.2
      have := hg.ks2 hks hc.2
      omega
    have h7 : f7Dec imax g = .ok ⟨upd (upd g.d g.k (g.d g.k - 1)) k' 1, k', g.ks⟩ := by
      unfold f7Dec
      rw [a]
      simp only [hm, hd, Nat.zero_add]
      by_cases h : k' = g.ks ∧ 1 = imax k'
      · rw [if_pos h, ← h.1]
      · rw [if_neg h]
    rw [h7]
    have hlow : low g.d (g.k - 1) = 0 := low_zero_of (fun i h1 h2 => hg.below i h1 (by omega))
    refine ⟨_, rfl, ⟨g.k, hg.one, hk, ⟨hc.1, ?_⟩, fun j h1 h2 hcan => ?_, ?_⟩, ?_⟩
    · rw [hlow]
      have h1 : low imax k' ≤ low imax (g.k - 1) := low_mono _ (by omega)
      obtain ⟨m, rfl⟩ : ∃ m, k' = m + 1 := ⟨k' - 1, by omega⟩
      rw [low_succ] at h1
      omega
    · have := hcan.1
      rw [hg.below j h1 h2] at this
      omega
    · funext i
      show upd (upd g.d g.k (g.d g.k - 1)) k' 1 i = give imax g.d g.k i
      unfold give
      rw [hlow, Nat.zero_add, top_one imax b (by omega) e (fun i h1 h2 => f i h1 (by omega))]
      by_cases h1 : i = k'
      · subst h1
        rw [upd_same, if_pos c, upd_same]
      · rw [upd_ne _ h1]
        by_cases h2 : i = g.k
        · subst h2; rw [upd_same, if_neg (by omega), if_pos rfl]
        · rw [upd_ne _ h2]
          by_cases h3 : i < g.k
          · rw [if_pos h3, upd_ne _ h1]
            by_cases h4 : 1 ≤ i
            · exact hg.below i h4 h3
            · exact hf.out i (by omega)
          · rw [if_neg h3, if_neg h2]
    · refine ⟨?_, b, fun i h1 h2 => ?_, fun h i h1 h2 h3 => ?_, fun h h2 => ?_⟩
      · show 0 < upd (upd g.d g.k (g.d g.k - 1)) k' 1 k'
        rw [upd_same]; omega
      · show upd (upd g.d g.k (g.d g.k - 1)) k' 1 i = 0
        simp only [] at h2
        rw [upd_ne _ (by omega), upd_ne _ (by omega)]
        exact hg.below i h1 (by omega)
      · exact hg.ks1 h i h1 (by simp only [] at h2; omega) h3
      · exact hg.ks2 h (by simp only [] at h2; omega)
  · rw [if_neg hc]
    have hpos := hg.pos
    have hno : ∀ j, 1 ≤ j → j ≤ g.k → ¬ Can imax g.d j := by
      intro j h1 h2 hcan
      by_cases hj : j = g.k
      · subst hj
        have := hcan.2
        rw [low_zero_of (v := imax) (fun i a b => hg.ks1 hks i a (by omega) (by omega))] at this
        omega
      · have := hcan.1
        rw [hg.below j h1 (by omega)] at this
        omega
    rcases f7Loop_spec (r + 1) g.d g.k hf hg.one hk (by omega) hno with ⟨e1, e2⟩ | ⟨g', e1, e2, e3⟩
    · left; rw [e1]; exact ⟨rfl, e2⟩
    · right; rw [e1]; exact ⟨g', rfl, e2, e3⟩

theorem ksUp_spec {imax d : ℕ → ℕ} {n : ℕ} (hle : ∀ i, 1 ≤ i → i ≤ n → d i ≤ imax i) : ∀ (fuel ks : ℕ), n + 1 ≤ ks + fuel →
    (∃ i, ks < i ∧ i ≤ n ∧ d i < imax i) →
    ∃ s, ksUp imax d n fuel ks = .ok s ∧ ks < s ∧ s ≤ n ∧ d s < imax s ∧ ∀ i, ks < i → i < s → d i = imax i := by
  intro fuel
  induction fuel with
  | zero => rintro ks h ⟨i, h1, h2, _⟩; omega
  | succ fuel ih =>
    rintro ks h ⟨i, h1, h2, h3⟩
    unfold ksUp
    rw [if_neg (by omega)]
    by_cases he : d (ks + 1) = imax (ks + 1)
    · rw [if_pos he]
      have : i ≠ ks + 1 := by rintro rfl; omega
      obtain ⟨s, a, b, c, e, f⟩ := ih (ks + 1) (by omega) ⟨i, by omega, h2, h3⟩
      refine ⟨s, a, by omega, c, e, fun j j1 j2 => ?_⟩
      by_cases hj : j = ks + 1
      · rw [hj]; exact he
      · exact f j (by omega) j2
    · rw [if_neg he]
      have := hle (ks + 1) (by omega) (by omega)
      exact ⟨ks + 1, rfl, by omega, by omega, by omega, fun j j1 j2 => by omega⟩

theorem room {v imax : ℕ → ℕ} {r : ℕ} (h : ∀ i, 1 ≤ i → i ≤ r → v i ≤ imax i) (hlt : low v r < low imax r) :
    ∃ i, 0 < i ∧ i ≤ r ∧ v i < imax i := by
  by_contra hc
  push Not at hc
  have := low_le (v := imax) (imax := v) (k := r) (fun i h1 h2 => hc i (by omega) h2)
  omega

/-- f7xact goes to the next column, or reports that there is none. -/
theorem f7xact_spec {imax : ℕ → ℕ} {r n : ℕ} {g : Gen} (hf : Fits imax r n g.d) (hg : GI imax g) (hk : g.k ≤ r)
    (hn : n < low imax r) :
    (f7xact r r imax g = .ok .none ∧ Last imax r g.d)
    ∨ (∃ g', f7xact r r imax g = .ok (.some g') ∧ Next imax r g.d g'.d ∧ GI imax g') := by
  unfold f7xact
  by_cases hks : g.ks = 0
  · rw [if_pos hks]
    obtain ⟨s, a, b, c, e, f⟩ := ksUp_spec hf.le (r + 1) 0 (by omega) (room hf.le (by rw [hf.tot]; exact hn))
    rw [a]
    refine f7Known_spec (g := ⟨g.d, g.k, s⟩) hf ⟨hg.pos, hg.one, hg.below, fun _ i h1 h2 h3 => ?_, fun _ h2 => ?_⟩ hk
      (by show s ≠ 0; omega)
    · rw [← f i (by omega) h3]; exact hg.below i h1 h2
    · show 0 < imax s; omega
  · rw [if_neg hks]
    exact f7Known_spec hf hg hk hks

theorem next_fun {imax v a b : ℕ → ℕ} {r : ℕ} (h : Next imax r v a) (h' : Next imax r v b) : a = b := by
  obtain ⟨k1, p1, q1, c1, n1, rfl⟩ := h
  obtain ⟨k2, p2, q2, c2, n2, rfl⟩ := h'
  have : k1 = k2 := by
    rcases lt_trichotomy k1 k2 with h | h | h
    · exact absurd c1 (n2 k1 p1 h)
    · exact h
    · exact absurd c2 (n1 k2 p2 h)
  rw [this]

theorem columnsFrom_walk {imax : ℕ → ℕ} {r n : ℕ} (hn : n < low imax r) {v : ℕ → ℕ} {l : List (ℕ → ℕ)}
    (w : Walk imax r v l) : (∀ u ∈ l, Fits imax r n u) → ∀ (g : Gen), g.d = v → GI imax g →
    ∀ fuel, l.length ≤ fuel → columnsFrom r r imax fuel g = .ok l := by
  induction w with
  | @stop v h =>
    intro hfit g hd hg fuel hfu
    obtain ⟨fuel, rfl⟩ : ∃ f, fuel = f + 1 := ⟨fuel - 1, by simp at hfu; omega⟩
    unfold columnsFrom
    have hf : Fits imax r n g.d := hd ▸ hfit v (by simp)
    have hk : g.k ≤ r := by
      by_contra hcon
      have := hg.pos
      rw [hf.out g.k (by omega)] at this
      omega
    rcases f7xact_spec hf hg hk hn with ⟨e1, _⟩ | ⟨g', _, e2, _⟩
    · rw [e1, hd]
    · exfalso
      obtain ⟨kk, p, q, c, _, _⟩ := e2
      rw [hd] at c
      exact h kk p q c
  | @step v v' l h w ih =>
    intro hfit g hd hg fuel hfu
    obtain ⟨fuel, rfl⟩ : ∃ f, fuel = f + 1 := ⟨fuel - 1, by simp at hfu; omega⟩
    unfold columnsFrom
    have hf : Fits imax r n g.d := hd ▸ hfit v (by simp)
    have hk : g.k ≤ r := by
      by_contra hcon
      have := hg.pos
      rw [hf.out g.k (by omega)] at this
      omega
    rcases f7xact_spec hf hg hk hn with ⟨_, e2⟩ | ⟨g', e1, e2, e3⟩
    · exfalso
      obtain ⟨kk, p, q, c, _, _⟩ := h
      rw [hd] at e2
      exact e2 kk p q c
    · rw [e1]
      have : g'.d = v' := by
        rw [hd] at e2
        exact next_fun e2 h
      have := ih (fun u hu => hfit u (List.mem_cons_of_mem _ hu)) g' this e3 fuel (by simp at hfu; omega)
      simp only [this, hd]

end Apop.Fisher
