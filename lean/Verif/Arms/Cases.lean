import Verif.Arms.Round
import Mathlib.Analysis.Convex.Mul

/-! # C152-C153: cases, and where the intersections are -/

namespace Apop.Arms

open Set

/-- A log density: the Normal's, up to a constant. -/
noncomputable def nrm (x : ℝ) : ℝ := - x ^ 2 / 2

theorem nrm_concave : ConcaveOn ℝ (Icc (-10) 10) nrm := by
  have h : ConvexOn ℝ univ fun x : ℝ => x ^ 2 := Even.convexOn_pow (by norm_num)
  have h2 := (h.smul (c := (1 / 2 : ℝ)) (by norm_num)).neg
  refine (h2.subset (subset_univ _) (convex_Icc _ _)).congr ?_
  intro x _
  simp only [Pi.neg_apply, smul_eq_mul, nrm]
  ring

/-- The hypotheses are met: a Normal set up with the default points, then updated. -/
theorem C153_case : ∃ e r, initial nrm false 0 (-10) 10 100 [-1, 0, 1] = some e ∧ Piece e 1 false ∧ update nrm false 0 100 (0, 0) e 1 false (-1 / 2) = some r ∧ Reach nrm false 0 (-10) 10 100 r ∧ r.ds = [(-1, -1/2), (-1/2, -1/8), (0, 0), (1, -1/2)] := by
  obtain ⟨e, he, -⟩ := C152_initial nrm_concave false 0 (le_refl _) 100 [-1, 0, 1] (by simp) (by simp) (by simp only [List.mem_cons, List.not_mem_nil, or_false]; rintro x (rfl | rfl | rfl) <;> constructor <;> norm_num) (by norm_num)
  have hR : Reach nrm false 0 (-10) 10 100 e := Reach.init _ e he
  obtain ⟨hds, -, -, -, hren⟩ := initial_points _ _ _ _ _ _ _ _ he
  have hds : e.ds = [(-1, -1/2), (0, 0), (1, -1/2)] := by rw [hds]; norm_num [nrm]
  obtain ⟨m, hm, hmv⟩ := hren.2 1 (by rw [hds]; simp)
  have hmx : m.1 = -1 := by
    rw [hds] at hmv
    norm_num [meetAt, back, meet, leftD, rightD, grad, cross] at hmv
    rw [← hmv]
  have hp : Piece e 1 false := ⟨m, (0, 0), by simpa [pieceL] using hm, by simp [pieceR, hds], by rw [hmx]; norm_num⟩
  obtain ⟨r, hr⟩ := C153_update (Or.inr nrm_concave) hR (0, 0) 1 false hp (-1 / 2)
  refine ⟨e, r, he, hp, hr, Reach.step e _ 1 false _ r hR hp hr, ?_⟩
  rcases update_points (C153_reach hR) hp hr with ⟨h0, -⟩ | ⟨-, h1, -, -⟩
  · rw [hds] at h0; simp at h0
  · rw [h1, hds]
    have e1 : leftX e 1 = -1 := by simp [leftX, back, hds]
    have e2 : rightX e 1 = 0 := by simp [rightX, hds]
    rw [e1, e2]
    norm_num [moved, XEPS, nrm]

/-- C152: without Metropolis steps setting up fails for a log density that isn't concave there. -/
theorem C152_violation : initial (fun x => x ^ 2) false 0 (-10) 10 100 [-2, -1, 1] = none := by
  unfold initial
  rw [if_pos (by norm_num)]
  norm_num [List.range_succ, allSome, meetAt, back, meet, leftD, rightD, grad]

/-- C155: its hypotheses are met by a Normal with the default points. -/
theorem C155_case : ∃ e, Reach nrm true 0 (-10) 10 100 e ∧ ConcaveOn ℝ (Icc (-10) 10) nrm ∧ Measurable nrm ∧ (∀ d ∈ nodes e.ms e.ds, Near (ymaxOf (nodes e.ms e.ds)) d) ∧ NoFlat e := by
  obtain ⟨e, he, -⟩ := C152_initial nrm_concave true 0 (le_refl _) 100 [-1, 0, 1] (by simp) (by simp) (by simp only [List.mem_cons, List.not_mem_nil, or_false]; rintro x (rfl | rfl | rfl) <;> constructor <;> norm_num) (by norm_num)
  have hi : initial nrm true 0 (-10) 10 100 [-1, 0, 1] = some ⟨[(-1, -1/2), (0, 0), (1, -1/2)], [(-10, -5), (-1, 1/2), (1, 1/2), (10, -5)]⟩ := by
    unfold initial
    rw [if_pos (by norm_num)]
    norm_num [List.range_succ, allSome, meetAt, back, meet, leftD, rightD, grad, cross, clip, YEPS, nrm]
  have hns : nodes [(-10, -5), (-1, 1/2), (1, 1/2), (10, -5)] [(-1, -1/2), (0, 0), (1, -1/2)] = ([(-10, -5), (-1, -1/2), (-1, 1/2), (0, 0), (1, 1/2), (1, -1/2), (10, -5)] : List Pt) := by simp [nodes]
  have hy : ymaxOf [(-10, -5), (-1, -1/2), (-1, 1/2), (0, 0), (1, 1/2), (1, -1/2), (10, -5)] = 1 / 2 := by norm_num [ymaxOf]
  refine ⟨_, Reach.init _ _ hi, nrm_concave, by unfold nrm; fun_prop, ?_, ?_⟩
  · simp only
    rw [hns, hy]
    intro d hd
    simp only [List.mem_cons, List.not_mem_nil, or_false] at hd
    rcases hd with rfl | rfl | rfl | rfl | rfl | rfl | rfl <;> norm_num [Near]
  · intro pre post p q hsp hpq hfl
    simp only at hsp
    rw [hns] at hsp
    have hc : ([(-10, -5), (-1, -1/2), (-1, 1/2), (0, 0), (1, 1/2), (1, -1/2), (10, -5)] : List Pt).IsChain (fun p q => p.1 < q.1 → ¬ |q.2 - p.2| < 1 / 10) := by norm_num [abs_of_pos, abs_of_neg]
    rw [hsp] at hc
    exact (List.isChain_append_cons_cons.mp hc).2.1 hpq hfl.1

/-- C154: over a flat piece the draw isn't exactly the envelope's: half the numbers don't split its area in half. -/
theorem C154_flat_refuted : ∃ (p q : Pt), Flat 0 p q ∧ p.1 < q.1 ∧ Near 0 p ∧ Near 0 q ∧ ∫ t in p.1..invX 0 p q (1 / 2), dens 0 p q t ≠ 1 / 2 * area 0 p q := by
  have hq : Real.exp (1 / 1000) ≤ 1 + 2 / 1000 := by
    have := Real.abs_exp_sub_one_sub_id_le (x := 1 / 1000) (by norm_num [abs_of_pos])
    rw [abs_le] at this
    norm_num at this ⊢
    linarith [this.2]
  have hgt : 1 < Real.exp (1 / 1000) := by rw [Real.one_lt_exp_iff]; norm_num
  have e1 : Real.exp ((1 / 1000 : ℝ) - 0 + 50) = Real.exp 50 * Real.exp (1 / 1000) := by rw [← Real.exp_add]; congr 1; norm_num
  have e0 : Real.exp ((0 : ℝ) - 0 + 50) = Real.exp 50 := by norm_num
  have h50 := Real.exp_pos 50
  have hy : |((1 / 1000 : ℝ)) - 0| < 1 / 10 := by norm_num [abs_of_pos]
  have hfl : |Real.exp ((1 / 1000 : ℝ) - 0 + 50) - Real.exp ((0 : ℝ) - 0 + 50)| ≤ 1 / 1000 * (Real.exp ((1 / 1000 : ℝ) - 0 + 50) + Real.exp ((0 : ℝ) - 0 + 50)) := by
    rw [e1, e0, abs_of_nonneg (by nlinarith)]
    nlinarith
  have hn0 : Near 0 ((0, 0) : Pt) := by norm_num [Near]
  have hn1 : Near 0 ((1, 1 / 1000) : Pt) := by norm_num [Near]
  refine ⟨(0, 0), (1, 1 / 1000), ⟨hy, hfl⟩, by norm_num, hn0, hn1, ?_⟩
  have hX : invX 0 ((0, 0) : Pt) (1, 1 / 1000) (1 / 2) = 1 / 2 := by
    unfold invX
    rw [if_neg (by norm_num), if_pos (by simpa [YEPS] using hy), expshift_near hn0, expshift_near hn1, if_neg]
    · norm_num
    · rw [gt_iff_lt, not_lt, EYEPS, abs_of_pos (show 0 < Real.exp (1 / 1000 - 0 + 50) + Real.exp (0 - 0 + 50) by positivity)]
      exact hfl
  have hA : area 0 ((0, 0) : Pt) (1, 1 / 1000) = 1 / 2 * (Real.exp 50 * Real.exp (1 / 1000) + Real.exp 50) := by
    unfold area
    rw [if_neg (by norm_num), if_pos (by simpa [YEPS] using hy), expshift_near hn0, expshift_near hn1, e1, e0]
    norm_num
  rw [hX, int_line 0 (0, 0) (1, 1 / 1000) (by norm_num) (by simpa [YEPS] using hy), hA, e1, e0]
  simp only
  intro h
  nlinarith

end Apop.Arms
