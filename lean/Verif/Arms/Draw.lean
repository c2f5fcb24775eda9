import Verif.Arms.Invert

/-! # C154: a draw from the envelope follows the envelope -/

namespace Apop.Arms

open Set

/-- A piece over which the envelope hardly changes: by at most a thousandth of the sum of its ends. -/
def Flat (y0 : ℝ) (p q : Pt) : Prop := |q.2 - p.2| < 1 / 10 ∧ |Real.exp (q.2 - y0 + 50) - Real.exp (p.2 - y0 + 50)| ≤ 1 / 1000 * (Real.exp (q.2 - y0 + 50) + Real.exp (p.2 - y0 + 50))

theorem total_pos (y0 : ℝ) : ∀ (l : List Pt) (a z : Pt), (a :: l).getLast? = some z → (a :: l).IsChain (fun a b => a.1 ≤ b.1) → (∀ d ∈ a :: l, Near y0 d) → a.1 < z.1 → 0 < total y0 (a :: l)
  | [], a, z, hz, _, _, h => by
    have : z = a := by simpa using hz.symm
    subst this
    exact absurd h (lt_irrefl _)
  | b :: l, a, z, hz, hc, hn, h => by
    rw [List.isChain_cons_cons] at hc
    rw [total]
    rcases hc.1.eq_or_lt with e | e
    · have := total_pos y0 l b z (by rwa [List.getLast?_cons_cons] at hz) hc.2 (fun d hd => hn d (List.mem_cons_of_mem _ hd)) (by rw [← e]; exact h)
      have := area_nonneg y0 a b hc.1
      linarith
    · have := area_pos y0 a b e (hn a (by simp)) (hn b (by simp))
      have := total_nonneg y0 (b :: l) hc.2
      linarith

theorem inv_all (y0 : ℝ) (a b : Pt) (h : a.1 < b.1) (ha : Near y0 a) (hb : Near y0 b) (p : ℝ) (h0 : 0 ≤ p) (h1 : p ≤ 1) :
    a.1 ≤ invX y0 a b p ∧ invX y0 a b p ≤ b.1 ∧ |(∫ x in a.1..invX y0 a b p, dens y0 a b x) - p * area y0 a b| ≤ area y0 a b / 4000 ∧
    (¬ Flat y0 a b → ∫ x in a.1..invX y0 a b p, dens y0 a b x = p * area y0 a b) := by
  have hA := area_nonneg y0 a b h.le
  by_cases hy : |b.2 - a.2| < YEPS
  · by_cases he : |expshift b.2 y0 - expshift a.2 y0| > EYEPS * |expshift b.2 y0 + expshift a.2 y0|
    · obtain ⟨i1, i2, i3⟩ := inv_line y0 a b h ha hb hy he p h0 h1
      refine ⟨i1, i2, ?_, fun _ => i3⟩
      rw [i3, sub_self, abs_zero]
      positivity
    · obtain ⟨i1, i2, i3⟩ := inv_flat y0 a b h ha hb hy he p h0 h1
      refine ⟨i1, i2, i3, fun hf => absurd ⟨hy, ?_⟩ hf⟩
      rw [expshift_near ha, expshift_near hb, EYEPS] at he
      have := not_lt.mp he
      rwa [abs_of_pos (by positivity : 0 < Real.exp (b.2 - y0 + 50) + Real.exp (a.2 - y0 + 50))] at this
  · obtain ⟨i1, i2, i3⟩ := inv_exp y0 a b h ha hb hy p h0 h1
    refine ⟨i1, i2, ?_, fun _ => i3⟩
    rw [i3, sub_self, abs_zero]
    positivity

/-- C154: for nodes from left to right, none more than 100 below the highest, and any uniform number in [0, 1): the draw is a point x of a piece of positive length such that the envelope's integral up to x is `prob` times its whole integral — exactly, or if the piece is flat, up to a four-thousandth of the area of that piece. -/
theorem C154_invert (y0 : ℝ) (ns : List Pt) (a z : Pt) (ha : ns.head? = some a) (hz : ns.getLast? = some z) (hlt : a.1 < z.1) (hc : ns.IsChain (fun a b => a.1 ≤ b.1)) (hn : ∀ d ∈ ns, Near y0 d) (prob : ℝ) (h0 : 0 ≤ prob) (h1 : prob < 1) :
    ∃ (pre post : List Pt) (p q : Pt) (x : ℝ), invert y0 prob ns = some (p, q, x) ∧ ns = pre ++ p :: q :: post ∧ p.1 < q.1 ∧ p.1 ≤ x ∧ x ≤ q.1 ∧
      |(∫ t in a.1..x, envelope y0 ns t) - prob * ∫ t in a.1..z.1, envelope y0 ns t| ≤ (∫ t in p.1..q.1, dens y0 p q t) / 4000 ∧
      (¬ Flat y0 p q → ∫ t in a.1..x, envelope y0 ns t = prob * ∫ t in a.1..z.1, envelope y0 ns t) := by
  obtain ⟨b, l, rfl⟩ : ∃ b l, ns = a :: b :: l := by
    match ns, ha, hz with
    | [c], ha, hz =>
      simp at ha hz
      rw [← ha, ← hz] at hlt
      exact absurd hlt (lt_irrefl _)
    | c :: b :: l, ha, _ =>
      have : c = a := by simpa using ha
      exact ⟨b, l, by rw [this]⟩
  have hT := total_pos y0 (b :: l) a z hz hc hn hlt
  obtain ⟨-, hTe⟩ := env_total y0 (b :: l) a z hz hc hn
  obtain ⟨w, hw⟩ := cumul_last y0 (b :: l) a 0
  rw [zero_add] at hw
  rw [hTe]
  have hu0 : 0 ≤ prob * total y0 (a :: b :: l) := mul_nonneg h0 hT.le
  have hu1 : prob * total y0 (a :: b :: l) < 0 + total y0 (a :: b :: l) := by
    rw [zero_add]
    exact (mul_lt_iff_lt_one_left hT).mpr h1
  obtain ⟨pre, post, p, q, e1, e2, e3, e4⟩ := lastLe_cumul y0 _ l a b 0 hc hu0 hu1
  rw [zero_add] at e2 e3 e4
  have hpq : p.1 ≤ q.1 := by
    rw [e1] at hc
    exact (List.isChain_append_cons_cons.mp hc).2.1
  have hpq' : p.1 < q.1 := by
    rcases hpq.eq_or_lt with h | h
    · have : area y0 p q = 0 := by unfold area; rw [if_pos h]
      rw [this] at e4
      linarith
    · exact h
  have hnp : Near y0 p := hn p (by rw [e1]; simp)
  have hnq : Near y0 q := hn q (by rw [e1]; simp)
  have hAp := area_pos y0 p q hpq' hnp hnq
  have hprop0 : 0 ≤ (prob * total y0 (a :: b :: l) - total y0 (pre ++ [p])) / (total y0 (pre ++ [p]) + area y0 p q - total y0 (pre ++ [p])) := by
    apply div_nonneg <;> linarith
  have hprop1 : (prob * total y0 (a :: b :: l) - total y0 (pre ++ [p])) / (total y0 (pre ++ [p]) + area y0 p q - total y0 (pre ++ [p])) ≤ 1 := by
    rw [div_le_one (by linarith)]; linarith
  obtain ⟨i1, i2, i3, i4⟩ := inv_all y0 p q hpq' hnp hnq _ hprop0 hprop1
  have hprop : (prob * total y0 (a :: b :: l) - total y0 (pre ++ [p])) / (total y0 (pre ++ [p]) + area y0 p q - total y0 (pre ++ [p])) * area y0 p q = prob * total y0 (a :: b :: l) - total y0 (pre ++ [p]) := by
    have : total y0 (pre ++ [p]) + area y0 p q - total y0 (pre ++ [p]) = area y0 p q := by ring
    rw [this]
    field_simp
  rw [hprop] at i3 i4
  obtain ⟨-, hI⟩ := env_int y0 pre a p q post (by rw [← e1]; rfl) (by rw [← e1]; exact hc) (by rw [← e1]; exact hn) _ i1 i2
  rw [← e1] at hI
  refine ⟨pre, post, p, q, _, ?_, e1, hpq', i1, i2, ?_, ?_⟩
  · unfold invert
    rw [List.head?_reverse, hw, Option.bind_some, pick_reverse, e2]
    rfl
  · rw [hI, ← area_eq y0 p q hpq hnp hnq]
    refine le_trans (le_of_eq ?_) i3
    congr 1
    ring
  · intro hf
    rw [hI, i4 hf]
    ring

theorem lin_near {y0 : ℝ} {p q : Pt} (hp : Near y0 p) (hq : Near y0 q) {x : ℝ} (h : p.1 < q.1) (h1 : p.1 ≤ x) (h2 : x ≤ q.1) : y0 - 100 < lin p q x := by
  unfold Near at hp hq
  have hw : 0 < q.1 - p.1 := by linarith
  have hr : 0 ≤ (x - p.1) / (q.1 - p.1) := div_nonneg (by linarith) hw.le
  have hr1 : (x - p.1) / (q.1 - p.1) ≤ 1 := by rw [div_le_one hw]; linarith
  unfold lin
  generalize (x - p.1) / (q.1 - p.1) = r at *
  rcases hr.eq_or_lt with e | e
  · rw [← e]; linarith
  · nlinarith

/-- C154: the height given with the draw is the envelope's there, and its logarithm too. -/
theorem C154_height (y0 : ℝ) (p q : Pt) (hp : Near y0 p) (hq : Near y0 q) (h : p.1 < q.1) (x : ℝ) (h1 : p.1 ≤ x) (h2 : x ≤ q.1) :
    eyAt y0 p q x = dens y0 p q x ∧ 0 < dens y0 p q x ∧ yAt y0 p q x = Real.log (dens y0 p q x) + y0 - 50 := by
  have hw : 0 < q.1 - p.1 := by linarith
  have hr : 0 ≤ (x - p.1) / (q.1 - p.1) := div_nonneg (by linarith) hw.le
  have hr1 : (x - p.1) / (q.1 - p.1) ≤ 1 := by rw [div_le_one hw]; linarith
  have hL := lin_near hp hq h h1 h2
  have e0 : (x - p.1) / (q.1 - p.1) * (q.2 - p.2) + p.2 = lin p q x := by rw [lin]; ring
  have e1 : eyAt y0 p q x = dens y0 p q x := by
    unfold eyAt dens
    rw [if_neg h.ne, expshift_near hp, expshift_near hq]
    split_ifs
    · rfl
    · rw [e0]
      unfold expshift YCEIL
      rw [if_pos (by linarith)]
  have e2 : 0 < dens y0 p q x := by
    unfold dens
    split_ifs
    · have := mix_pos (Real.exp_pos (p.2 - y0 + 50)) (Real.exp_pos (q.2 - y0 + 50)) hr hr1
      linarith
    · exact Real.exp_pos _
  refine ⟨e1, e2, ?_⟩
  unfold yAt
  rw [if_neg h.ne, e1, e0]
  split_ifs with hy
  · rfl
  · unfold dens
    rw [if_neg hy, Real.log_exp]
    ring

/-- C154: the height given with the draw is never below the line of the envelope: the chord of the exponential is above the exponential of the chord. -/
theorem C154_over (y0 : ℝ) (p q : Pt) (h : p.1 < q.1) (x : ℝ) (h1 : p.1 ≤ x) (h2 : x ≤ q.1) : Real.exp (lin p q x - y0 + 50) ≤ dens y0 p q x := by
  have hw : 0 < q.1 - p.1 := by linarith
  have hr : 0 ≤ (x - p.1) / (q.1 - p.1) := div_nonneg (by linarith) hw.le
  have hr1 : (x - p.1) / (q.1 - p.1) ≤ 1 := by rw [div_le_one hw]; linarith
  unfold dens
  split_ifs
  · unfold lin
    generalize (x - p.1) / (q.1 - p.1) = r at *
    have hc := convexOn_exp.2 (mem_univ (p.2 - y0 + 50)) (mem_univ (q.2 - y0 + 50)) (sub_nonneg.mpr hr1) hr (by ring)
    simp only [smul_eq_mul] at hc
    have e : p.2 + r * (q.2 - p.2) - y0 + 50 = (1 - r) * (p.2 - y0 + 50) + r * (q.2 - y0 + 50) := by ring
    rw [e]
    linarith
  · exact le_refl _

end Apop.Arms
