import Verif.Rake.Steps

/-! # C91: raking. How far the weights move, and the distance to a table with the margins -/

namespace Apop.Rake
open Finset

theorem mainLoop_flatten (first : Bool) (cs : List (List Note)) (s : St) : mainLoop first cs s = sweep first cs.flatten s := by
  unfold mainLoop sweep
  induction cs generalizing s with
  | nil => rfl
  | cons c cs ih => rw [List.foldl_cons, List.flatten_cons, List.foldl_append]; exact ih _

/-- What each note satisfies by itself. -/
structure Good1 (n : ℕ) (nt : Note) : Prop where
  nodup : nt.elmts.Nodup
  lt : ∀ m ∈ nt.elmts, m < n
  nonneg : 0 ≤ nt.total

theorem Good.one {n : ℕ} {nts : List Note} (g : Good n nts) : ∀ nt ∈ nts, Good1 n nt := fun nt h => ⟨g.nodup nt h, g.lt nt h, g.nonneg nt h⟩

theorem all_nonneg {n : ℕ} (first : Bool) : ∀ (nts : List Note), (∀ nt ∈ nts, Good1 n nt) → ∀ s : St, (∀ m, 0 ≤ s.w m) → ∀ m, 0 ≤ (sweep first nts s).w m := by
  intro nts
  induction nts with
  | nil => intro _ s h; exact h
  | cons nt nts ih =>
    intro g s h
    have g1 := g nt (by simp)
    exact ih (fun a ha => g a (List.mem_cons_of_mem _ ha)) _ (oneSet_nonneg first nt g1.nodup g1.nonneg s h)

theorem all_zero {n : ℕ} (first : Bool) : ∀ (nts : List Note), (∀ nt ∈ nts, Good1 n nt) → ∀ (s : St) (m : ℕ), s.w m = 0 → (sweep first nts s).w m = 0 := by
  intro nts
  induction nts with
  | nil => intro _ s m h; exact h
  | cons nt nts ih =>
    intro g s m h
    exact ih (fun a ha => g a (List.mem_cons_of_mem _ ha)) _ m (oneSet_zero first nt (g nt (by simp)).nodup s m h)

theorem all_dev {n : ℕ} (first : Bool) : ∀ (nts : List Note), (∀ nt ∈ nts, Good1 n nt) → ∀ s : St, s.dev ≤ (sweep first nts s).dev := by
  intro nts
  induction nts with
  | nil => intro _ s; exact le_rfl
  | cons nt nts ih =>
    intro g s
    exact (oneSet_dev first nt (g nt (by simp)).nodup s).trans (ih (fun a ha => g a (List.mem_cons_of_mem _ ha)) _)

theorem sum_block (n : ℕ) (nt : Note) (g : Good1 n nt) (f : ℕ → ℝ) : ∑ m ∈ range n, (if m ∈ nt.elmts then f m else 0) = S nt f := by
  rw [S_eq nt g.nodup, ← Finset.sum_filter]
  congr 1
  ext m
  simp only [mem_filter, mem_range, List.mem_toFinset]
  exact ⟨fun h => h.2, fun h => ⟨g.lt m h, h⟩⟩

theorem S_mul (nt : Note) (f : ℕ → ℝ) (r : ℝ) : S nt (fun m => f m * r) = S nt f * r := by
  unfold S
  rw [List.sum_map_mul_right]

/-- A step moves the weights by the deviation in all. -/
theorem step_l1 (n : ℕ) (nt : Note) (g : Good1 n nt) (w : ℕ → ℝ) (hw : ∀ m, 0 ≤ w m) (hS : S nt w ≠ 0) : ∑ m ∈ range n, |step nt w m - w m| = |S nt w - nt.total| := by
  have hpos : 0 < S nt w := lt_of_le_of_ne (S_nonneg nt w hw) (Ne.symm hS)
  have e : ∀ m, |step nt w m - w m| = if m ∈ nt.elmts then w m * |nt.total / S nt w - 1| else 0 := by
    intro m
    unfold step
    split
    · rw [show w m * (nt.total / S nt w) - w m = w m * (nt.total / S nt w - 1) by ring, abs_mul, abs_of_nonneg (hw m)]
    · simp
  rw [Finset.sum_congr rfl (fun m _ => e m), sum_block n nt g, S_mul]
  nth_rw 1 [← abs_of_pos hpos]
  rw [← abs_mul, abs_sub_comm]
  congr 1
  field_simp

/-- The weights move no more than the number of combinations times the deviation found. -/
theorem all_l1 {n : ℕ} (first : Bool) : ∀ (nts : List Note), (∀ nt ∈ nts, Good1 n nt) → ∀ s : St, (∀ m, 0 ≤ s.w m) → 0 ≤ s.dev →
    ∑ m ∈ range n, |(sweep first nts s).w m - s.w m| ≤ nts.length * (sweep first nts s).dev := by
  intro nts
  induction nts with
  | nil => intro _ s _ _; simp [sweep]
  | cons nt nts ih =>
    intro g s hw hd
    have g1 := g nt (by simp)
    have g2 : ∀ a ∈ nts, Good1 n a := fun a ha => g a (List.mem_cons_of_mem _ ha)
    have hd' : s.dev ≤ (oneSet first s nt).dev := oneSet_dev first nt g1.nodup s
    have i := ih g2 (oneSet first s nt) (oneSet_nonneg first nt g1.nodup g1.nonneg s hw) (hd.trans hd')
    have hend := all_dev first nts g2 (oneSet first s nt)
    have h1 : ∑ m ∈ range n, |(oneSet first s nt).w m - s.w m| ≤ (oneSet first s nt).dev := by
      rcases oneSet_cases first nt g1.nodup s with ⟨e, _⟩ | ⟨hS, e⟩ <;> rw [e]
      · simpa using hd
      · rw [step_l1 n nt g1 s.w hw hS]
        exact le_max_left _ _
    have e : sweep first (nt :: nts) s = sweep first nts (oneSet first s nt) := rfl
    rw [e]
    calc ∑ m ∈ range n, |(sweep first nts (oneSet first s nt)).w m - s.w m|
        ≤ ∑ m ∈ range n, (|(sweep first nts (oneSet first s nt)).w m - (oneSet first s nt).w m| + |(oneSet first s nt).w m - s.w m|) :=
          Finset.sum_le_sum fun m _ => by
            have := abs_add_le ((sweep first nts (oneSet first s nt)).w m - (oneSet first s nt).w m) ((oneSet first s nt).w m - s.w m)
            simpa using this
      _ ≤ nts.length * (sweep first nts (oneSet first s nt)).dev + (sweep first nts (oneSet first s nt)).dev := by
          rw [Finset.sum_add_distrib]
          linarith
      _ = _ := by push_cast [List.length_cons]; ring

theorem S_diff {n : ℕ} (nt : Note) (g : Good1 n nt) (v w : ℕ → ℝ) : |S nt v - S nt w| ≤ ∑ m ∈ range n, |v m - w m| := by
  rw [S_eq nt g.nodup, S_eq nt g.nodup, ← Finset.sum_sub_distrib]
  refine (Finset.abs_sum_le_sum_abs _ _).trans ?_
  refine Finset.sum_le_sum_of_subset_of_nonneg ?_ (fun _ _ _ => abs_nonneg _)
  intro m hm
  exact mem_range.2 (g.lt m (by simpa using hm))

/-! ## The distance -/

/-- The generalised Kullback–Leibler distance of two weights, `p log(p/w) - p + w`. -/
noncomputable def kl1 (p w : ℝ) : ℝ := p * Real.log (p / w) - p + w

/-- Of two tables with `n` cells. -/
noncomputable def kl (n : ℕ) (p w : ℕ → ℝ) : ℝ := ∑ m ∈ range n, kl1 (p m) (w m)

theorem kl1_ge (T s : ℝ) (hT : 0 ≤ T) (hs : 0 < s) : (Real.sqrt T - Real.sqrt s) ^ 2 ≤ kl1 T s := by
  unfold kl1
  rcases hT.eq_or_lt with rfl | hT
  · simp [Real.sq_sqrt hs.le]
  have a : 0 < Real.sqrt T := Real.sqrt_pos.2 hT
  have b : 0 < Real.sqrt s := Real.sqrt_pos.2 hs
  have eT := Real.sq_sqrt hT.le
  have es := Real.sq_sqrt hs.le
  have hl : Real.log (T / s) = 2 * Real.log (Real.sqrt T / Real.sqrt s) := by
    rw [← Real.sqrt_div hT.le, Real.log_sqrt (by positivity)]; ring
  have hb : 1 - (Real.sqrt T / Real.sqrt s)⁻¹ ≤ Real.log (Real.sqrt T / Real.sqrt s) := Real.one_sub_inv_le_log_of_pos (by positivity)
  rw [inv_div] at hb
  have hm : T * (1 - Real.sqrt s / Real.sqrt T) ≤ T * Real.log (Real.sqrt T / Real.sqrt s) := mul_le_mul_of_nonneg_left hb hT.le
  have e : T * (1 - Real.sqrt s / Real.sqrt T) = T - Real.sqrt T * Real.sqrt s := by
    nth_rw 1 [← eT]; nth_rw 3 [← eT]; field_simp
  rw [hl]
  nlinarith

theorem kl1_nonneg (p w : ℝ) (hp : 0 ≤ p) (hw : 0 ≤ w) (h : w = 0 → p = 0) : 0 ≤ kl1 p w := by
  rcases hw.eq_or_lt with rfl | hw
  · simp [kl1, h rfl]
  · exact (sq_nonneg _).trans (kl1_ge p w hp hw)

/-- If total and sum differ by `tol`, the distance is at least this. -/
theorem kl1_tol (T s X tol : ℝ) (hT : 0 ≤ T) (hs : 0 < s) (hX : T ≤ X) (ht : 0 < tol) (h : tol ≤ |s - T|) : tol ^ 2 / (2 * (2 * X + tol)) ≤ kl1 T s := by
  refine le_trans ?_ (kl1_ge T s hT hs)
  set a := Real.sqrt T
  set b := Real.sqrt s
  have ha : 0 ≤ a := Real.sqrt_nonneg T
  have hb : 0 < b := Real.sqrt_pos.2 hs
  have eT : a ^ 2 = T := Real.sq_sqrt hT
  have es : b ^ 2 = s := Real.sq_sqrt hs.le
  set u := |s - T| with hu
  have hu0 : 0 < u := ht.trans_le h
  have hsu : s ≤ T + u := by have := le_abs_self (s - T); linarith
  have e1 : (a - b) ^ 2 * (a + b) ^ 2 = u ^ 2 := by
    rw [hu, sq_abs, ← eT, ← es]; ring
  have e2 : (a + b) ^ 2 ≤ 2 * (2 * X + u) := by nlinarith [sq_nonneg (a - b)]
  have hX0 : 0 ≤ X := hT.trans hX
  rw [div_le_iff₀ (by positivity)]
  have e3 : u ^ 2 ≤ (a - b) ^ 2 * (2 * (2 * X + u)) := by
    rw [← e1]; exact mul_le_mul_of_nonneg_left e2 (sq_nonneg _)
  have e4 : tol ^ 2 * (2 * X + u) ≤ u ^ 2 * (2 * X + tol) := by
    have a1 : tol ^ 2 ≤ u ^ 2 := by nlinarith
    have a2 : tol ^ 2 * (2 * X) ≤ u ^ 2 * (2 * X) := mul_le_mul_of_nonneg_right a1 (by positivity)
    have a3 : tol ^ 2 * u ≤ u ^ 2 * tol := by
      have : tol * u * tol ≤ tol * u * u := mul_le_mul_of_nonneg_left h (by positivity)
      nlinarith
    linarith
  have hp : 0 < 2 * X + u := by positivity
  have e5 : tol ^ 2 * (2 * X + u) ≤ ((a - b) ^ 2 * (2 * (2 * X + tol))) * (2 * X + u) := by
    have := mul_le_mul_of_nonneg_right e3 (show 0 ≤ 2 * X + tol by positivity)
    nlinarith
  exact le_of_mul_le_mul_right e5 hp

/-- What a step takes off the distance to a table with the block's total. -/
theorem step_kl (n : ℕ) (nt : Note) (g : Good1 n nt) (p w : ℕ → ℝ) (hp : ∀ m, 0 ≤ p m) (hS : S nt w ≠ 0) (hsup : ∀ m < n, w m = 0 → p m = 0) (hP : S nt p = nt.total) :
    kl n p (step nt w) = kl n p w - kl1 nt.total (S nt w) := by
  have key : ∀ m ∈ range n, kl1 (p m) (w m) - kl1 (p m) (step nt w m) = if m ∈ nt.elmts then (p m * Real.log (nt.total / S nt w) + w m * (1 - nt.total / S nt w)) else 0 := by
    intro m hm
    unfold step
    by_cases hb : m ∈ nt.elmts
    · rw [if_pos hb, if_pos hb]
      unfold kl1
      by_cases hp0 : p m = 0
      · rw [hp0]; ring
      · have hw0 : w m ≠ 0 := fun h => hp0 (hsup m (mem_range.1 hm) h)
        have hT : nt.total ≠ 0 := fun h => hp0 (S_zero nt g.nodup p hp (hP.trans h) m hb)
        have hr : nt.total / S nt w ≠ 0 := div_ne_zero hT hS
        rw [Real.log_div hp0 hw0, Real.log_div hp0 (mul_ne_zero hw0 hr), Real.log_mul hw0 hr]
        ring
    · rw [if_neg hb, if_neg hb]; ring
  have hsum : kl n p w - kl n p (step nt w) = S nt p * Real.log (nt.total / S nt w) + S nt w * (1 - nt.total / S nt w) := by
    unfold kl
    rw [← Finset.sum_sub_distrib, Finset.sum_congr rfl key, sum_block n nt g, ← S_mul, ← S_mul]
    unfold S
    rw [List.sum_map_add]
  have : S nt w * (1 - nt.total / S nt w) = S nt w - nt.total := by field_simp
  rw [hP, this] at hsum
  unfold kl1
  linarith

theorem S_le_total (n : ℕ) (nt : Note) (g : Good1 n nt) (p : ℕ → ℝ) (hp : ∀ m, 0 ≤ p m) : S nt p ≤ ∑ m ∈ range n, p m := by
  rw [← sum_block n nt g]
  refine Finset.sum_le_sum fun m _ => ?_
  split
  · exact le_rfl
  · exact hp m

theorem oneSet_sup (n : ℕ) (first : Bool) (nt : Note) (g : Good1 n nt) (p : ℕ → ℝ) (hp : ∀ m, 0 ≤ p m) (hP : S nt p = nt.total) (s : St) (hsup : ∀ m < n, s.w m = 0 → p m = 0) :
    ∀ m < n, (oneSet first s nt).w m = 0 → p m = 0 := by
  rcases oneSet_cases first nt g.nodup s with ⟨e, _⟩ | ⟨hS, e⟩ <;> rw [e]
  · exact hsup
  · intro m hm h0
    simp only [step] at h0
    by_cases hb : m ∈ nt.elmts
    · rw [if_pos hb] at h0
      rcases mul_eq_zero.1 h0 with h | h
      · exact hsup m hm h
      · rcases div_eq_zero_iff.1 h with h | h
        · exact S_zero nt g.nodup p hp (hP.trans h) m hb
        · exact absurd h hS
    · rw [if_neg hb] at h0; exact hsup m hm h0

/-- The distance falls, and by at least so much if a deviation is as large as `tol`. -/
theorem all_kl (n : ℕ) (first : Bool) (p : ℕ → ℝ) (hp : ∀ m, 0 ≤ p m) (tol : ℝ) (ht : 0 < tol) : ∀ (nts : List Note), (∀ nt ∈ nts, Good1 n nt) → (∀ nt ∈ nts, S nt p = nt.total) →
    ∀ s : St, (∀ m, 0 ≤ s.w m) → (∀ m < n, s.w m = 0 → p m = 0) →
    (kl n p (sweep first nts s).w + (if tol ≤ (sweep first nts s).dev then tol ^ 2 / (2 * (2 * (∑ m ∈ range n, p m) + tol)) else 0) ≤
      kl n p s.w + (if tol ≤ s.dev then tol ^ 2 / (2 * (2 * (∑ m ∈ range n, p m) + tol)) else 0)) ∧ ∀ m < n, (sweep first nts s).w m = 0 → p m = 0 := by
  intro nts
  induction nts with
  | nil => intro _ _ s _ h; exact ⟨le_rfl, h⟩
  | cons nt nts ih =>
    intro g hP s hw hsup
    have g1 := g nt (by simp)
    have hP1 := hP nt (by simp)
    obtain ⟨i1, i2⟩ := ih (fun a ha => g a (List.mem_cons_of_mem _ ha)) (fun a ha => hP a (List.mem_cons_of_mem _ ha)) (oneSet first s nt)
      (oneSet_nonneg first nt g1.nodup g1.nonneg s hw) (oneSet_sup n first nt g1 p hp hP1 s hsup)
    refine ⟨le_trans i1 ?_, i2⟩
    rcases oneSet_cases first nt g1.nodup s with ⟨e, _⟩ | ⟨hS, e⟩
    · rw [e]
    · rw [e]
      have hpos : 0 < S nt s.w := lt_of_le_of_ne (S_nonneg nt s.w hw) (Ne.symm hS)
      have hk := step_kl n nt g1 p s.w hp hS hsup hP1
      have hX : nt.total ≤ ∑ m ∈ range n, p m := hP1 ▸ S_le_total n nt g1 p hp
      have hX0 : 0 ≤ ∑ m ∈ range n, p m := Finset.sum_nonneg fun m _ => hp m
      have hk0 : 0 ≤ kl1 nt.total (S nt s.w) := (sq_nonneg _).trans (kl1_ge _ _ g1.nonneg hpos)
      have hd0 : 0 ≤ tol ^ 2 / (2 * (2 * (∑ m ∈ range n, p m) + tol)) := by positivity
      simp only [hk]
      by_cases hs : tol ≤ s.dev
      · rw [if_pos hs, if_pos (hs.trans (le_max_right _ _))]; linarith
      · rw [if_neg hs]
        by_cases hm : tol ≤ max |S nt s.w - nt.total| s.dev
        · rw [if_pos hm]
          have : tol ≤ |S nt s.w - nt.total| := by
            rcases le_max_iff.1 hm with h | h
            · exact h
            · exact absurd h hs
          have := kl1_tol nt.total (S nt s.w) _ tol g1.nonneg hpos hX ht this
          linarith
        · rw [if_neg hm]; linarith

theorem kl_nonneg (n : ℕ) (p w : ℕ → ℝ) (hp : ∀ m, 0 ≤ p m) (hw : ∀ m, 0 ≤ w m) (h : ∀ m < n, w m = 0 → p m = 0) : 0 ≤ kl n p w :=
  Finset.sum_nonneg fun m hm => kl1_nonneg _ _ (hp m) (hw m) (h m (mem_range.1 hm))

/-! ## The rounds -/

/-- What the last round started from. -/
theorem rounds_last {n : ℕ} (cs : List (List Note)) (hg : ∀ c ∈ cs, Good n c) (tol : ℝ) : ∀ (f k : ℕ) (w : ℕ → ℝ), 1 ≤ f → 1 ≤ k → (∀ m, 0 ≤ w m) →
    (k ≠ 1 → ∀ c ∈ cs, ∀ nt ∈ c, nt.total = 0 → ∀ m ∈ nt.elmts, w m = 0) →
    ∃ (j : ℕ) (v : ℕ → ℝ), 1 ≤ j ∧ (∀ m, 0 ≤ v m) ∧ (j ≠ 1 → ∀ c ∈ cs, ∀ nt ∈ c, nt.total = 0 → ∀ m ∈ nt.elmts, v m = 0) ∧
      (rounds cs tol f k w).1 = (mainLoop (j == 1) cs ⟨v, 0⟩).w ∧ ((rounds cs tol f k w).2 < k + f → (mainLoop (j == 1) cs ⟨v, 0⟩).dev < tol) := by
  intro f
  have hg1 : ∀ nt ∈ cs.flatten, Good1 n nt := by
    intro nt h
    obtain ⟨c, hc, h⟩ := List.mem_flatten.1 h
    exact (hg c hc).one nt h
  induction f with
  | zero => intro k w h; omega
  | succ f ih =>
    intro k w _ hk hw hz
    by_cases hd : (mainLoop (k == 1) cs ⟨w, 0⟩).dev < tol
    · refine ⟨k, w, hk, hw, hz, ?_, fun _ => hd⟩
      rw [rounds]; simp only [if_pos hd]
    · have er : rounds cs tol (f + 1) k w = rounds cs tol f (k + 1) (mainLoop (k == 1) cs ⟨w, 0⟩).w := by rw [rounds]; simp only [if_neg hd]
      rw [er]
      have hw' : ∀ m, 0 ≤ (mainLoop (k == 1) cs ⟨w, 0⟩).w m := by
        rw [mainLoop_flatten]; exact all_nonneg _ _ hg1 _ hw
      have hz' : ∀ c ∈ cs, ∀ nt ∈ c, nt.total = 0 → ∀ m ∈ nt.elmts, (mainLoop (k == 1) cs ⟨w, 0⟩).w m = 0 := by
        intro c hc nt hnt ht m hm
        obtain ⟨pre, post, rfl⟩ := List.append_of_mem hc
        rw [mainLoop_flatten, List.flatten_append, List.flatten_cons]
        have gpre : ∀ a ∈ pre.flatten, Good1 n a := fun a ha => hg1 a (by rw [List.flatten_append]; exact List.mem_append_left _ ha)
        have gpost : ∀ a ∈ post.flatten, Good1 n a := fun a ha => hg1 a (by rw [List.flatten_append, List.flatten_cons]; exact List.mem_append_right _ (List.mem_append_right _ ha))
        have split : sweep (k == 1) (pre.flatten ++ (c ++ post.flatten)) ⟨w, 0⟩ = sweep (k == 1) post.flatten (sweep (k == 1) c (sweep (k == 1) pre.flatten ⟨w, 0⟩)) := by
          simp [sweep, List.foldl_append]
        rw [split]
        refine all_zero _ _ gpost _ m ?_
        have hpn := all_nonneg (k == 1) _ gpre ⟨w, 0⟩ hw
        rcases sweep_margins (k == 1) c (hg c hc) (sweep (k == 1) pre.flatten ⟨w, 0⟩) hpn (by
            intro hf a ha hta e he
            refine all_zero _ _ gpre ⟨w, 0⟩ e (hz (by simpa using hf) c hc a ha hta e he)) nt hnt with h | ⟨_, h⟩
        · rw [ht] at h
          exact S_zero nt ((hg c hc).nodup nt hnt) _ (sweep_nonneg _ c (hg c hc) _ hpn) h m hm
        · exact h m hm
      cases f with
      | zero =>
        refine ⟨k, w, hk, hw, hz, rfl, fun h => ?_⟩
        simp [rounds] at h
      | succ f =>
        obtain ⟨j, v, h1, h2, h3, h4, h5⟩ := ih (k + 1) _ (by omega) (by omega) hw' (fun _ => hz')
        exact ⟨j, v, h1, h2, h3, h4, fun h => h5 (by omega)⟩

/-- Distance and stopping. -/
theorem rounds_kl {n : ℕ} (cs : List (List Note)) (hg : ∀ c ∈ cs, Good n c) (p : ℕ → ℝ) (hp : ∀ m, 0 ≤ p m) (hP : ∀ c ∈ cs, ∀ nt ∈ c, S nt p = nt.total) (tol : ℝ) (ht : 0 < tol) :
    ∀ (f k : ℕ) (w : ℕ → ℝ), (∀ m, 0 ≤ w m) → (∀ m < n, w m = 0 → p m = 0) →
    (kl n p (rounds cs tol f k w).1 ≤ kl n p w) ∧ (∀ m < n, (rounds cs tol f k w).1 m = 0 → p m = 0) ∧
    (kl n p w < f * (tol ^ 2 / (2 * (2 * (∑ m ∈ range n, p m) + tol))) → (rounds cs tol f k w).2 < k + f) := by
  intro f
  have hg1 : ∀ nt ∈ cs.flatten, Good1 n nt := by
    intro nt h
    obtain ⟨c, hc, h⟩ := List.mem_flatten.1 h
    exact (hg c hc).one nt h
  have hP1 : ∀ nt ∈ cs.flatten, S nt p = nt.total := by
    intro nt h
    obtain ⟨c, hc, h⟩ := List.mem_flatten.1 h
    exact hP c hc nt h
  have hX0 : 0 ≤ ∑ m ∈ range n, p m := Finset.sum_nonneg fun m _ => hp m
  have hd0 : 0 ≤ tol ^ 2 / (2 * (2 * (∑ m ∈ range n, p m) + tol)) := by positivity
  induction f with
  | zero =>
    intro k w hw hs
    refine ⟨le_rfl, hs, fun h => ?_⟩
    simp only [Nat.cast_zero, zero_mul] at h
    exact absurd (kl_nonneg n p w hp hw hs) (not_le.2 h)
  | succ f ih =>
    intro k w hw hs
    obtain ⟨k1, k2⟩ := all_kl n (k == 1) p hp tol ht cs.flatten hg1 hP1 ⟨w, 0⟩ hw hs
    rw [← mainLoop_flatten] at k1 k2
    simp only [if_neg (not_le.2 ht), add_zero] at k1
    by_cases hd : (mainLoop (k == 1) cs ⟨w, 0⟩).dev < tol
    · have er : rounds cs tol (f + 1) k w = ((mainLoop (k == 1) cs ⟨w, 0⟩).w, k) := by rw [rounds]; simp only [if_pos hd]
      rw [er]
      simp only [if_neg (not_le.2 hd), add_zero] at k1
      exact ⟨k1, k2, fun _ => by simp⟩
    · have er : rounds cs tol (f + 1) k w = rounds cs tol f (k + 1) (mainLoop (k == 1) cs ⟨w, 0⟩).w := by rw [rounds]; simp only [if_neg hd]
      rw [er]
      rw [if_pos (not_lt.1 hd)] at k1
      have hw' : ∀ m, 0 ≤ (mainLoop (k == 1) cs ⟨w, 0⟩).w m := by
        rw [mainLoop_flatten]; exact all_nonneg _ _ hg1 _ hw
      obtain ⟨i1, i2, i3⟩ := ih (k + 1) _ hw' k2
      refine ⟨by linarith, i2, fun h => ?_⟩
      have := i3 (by push_cast at h; linarith)
      omega

end Apop.Rake
