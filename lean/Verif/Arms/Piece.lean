import Verif.Arms.Envelope
import Mathlib.Analysis.SpecialFunctions.Integrals.Basic
import Mathlib.MeasureTheory.Integral.IntervalIntegral.FundThmCalculus

/-! # C154: a piece of the envelope — its area and its inverse (apop_arms.c) -/

namespace Apop.Arms

open Set

/-- `YCEIL`, apop_arms.c:12. -/
noncomputable def YCEIL : ℝ := 50

/-- `EYEPS`, apop_arms.c:11. -/
noncomputable def EYEPS : ℝ := 1 / 1000

/-- `expshift`, apop_arms.c:513-519. -/
noncomputable def expshift (y y0 : ℝ) : ℝ := if y - y0 > -2 * YCEIL then Real.exp (y - y0 + YCEIL) else 0

/-- `logshift`, apop_arms.c:521-524. -/
noncomputable def logshift (y y0 : ℝ) : ℝ := Real.log y + y0 - YCEIL

/-- `area`, apop_arms.c:500-511. -/
noncomputable def area (y0 : ℝ) (a b : Pt) : ℝ :=
  if a.1 = b.1 then 0
  else if |b.2 - a.2| < YEPS then 1 / 2 * (expshift b.2 y0 + expshift a.2 y0) * (b.1 - a.1)
  else (expshift b.2 y0 - expshift a.2 y0) / (b.2 - a.2) * (b.1 - a.1)

/-- The x that `invert` gives within a piece, apop_arms.c:205-231, for a proportion `p` of its area. -/
noncomputable def invX (y0 : ℝ) (a b : Pt) (p : ℝ) : ℝ :=
  if a.1 = b.1 then b.1
  else if |b.2 - a.2| < YEPS then
    if |expshift b.2 y0 - expshift a.2 y0| > EYEPS * |expshift b.2 y0 + expshift a.2 y0| then
      a.1 + (b.1 - a.1) / (expshift b.2 y0 - expshift a.2 y0) * (-expshift a.2 y0 + Real.sqrt ((1 - p) * expshift a.2 y0 * expshift a.2 y0 + p * expshift b.2 y0 * expshift b.2 y0))
    else a.1 + (b.1 - a.1) * p
  else a.1 + (b.1 - a.1) / (b.2 - a.2) * (-a.2 + logshift ((1 - p) * expshift a.2 y0 + p * expshift b.2 y0) y0)

/-- `p->ey`, apop_arms.c:208, 224, 231: the height there of the shifted exponentiated envelope. -/
noncomputable def eyAt (y0 : ℝ) (a b : Pt) (x : ℝ) : ℝ :=
  if a.1 = b.1 then expshift b.2 y0
  else if |b.2 - a.2| < YEPS then (x - a.1) / (b.1 - a.1) * (expshift b.2 y0 - expshift a.2 y0) + expshift a.2 y0
  else expshift ((x - a.1) / (b.1 - a.1) * (b.2 - a.2) + a.2) y0

/-- `p->y`, apop_arms.c:207, 225, 230. -/
noncomputable def yAt (y0 : ℝ) (a b : Pt) (x : ℝ) : ℝ :=
  if a.1 = b.1 then b.2
  else if |b.2 - a.2| < YEPS then logshift (eyAt y0 a b x) y0
  else (x - a.1) / (b.1 - a.1) * (b.2 - a.2) + a.2

/-! ### What they are -/

/-- The function the draws within a piece should follow: the exponential of the line from a to b, multiplied by e^50/e^y0; where the line rises by less than a tenth, the chord of that exponential instead. -/
noncomputable def dens (y0 : ℝ) (a b : Pt) (x : ℝ) : ℝ :=
  if |b.2 - a.2| < YEPS then (x - a.1) / (b.1 - a.1) * (Real.exp (b.2 - y0 + 50) - Real.exp (a.2 - y0 + 50)) + Real.exp (a.2 - y0 + 50)
  else Real.exp (lin a b x - y0 + 50)

/-- No underflow: at most 100 below the highest point. -/
def Near (y0 : ℝ) (a : Pt) : Prop := y0 - 100 < a.2

theorem expshift_near {y0 : ℝ} {a : Pt} (h : Near y0 a) : expshift a.2 y0 = Real.exp (a.2 - y0 + 50) := by
  unfold Near at h
  unfold expshift YCEIL
  rw [if_pos (by linarith)]

theorem lin_left (a b : Pt) : lin a b a.1 = a.2 := by simp [lin]

theorem lin_right (a b : Pt) (h : a.1 < b.1) : lin a b b.1 = b.2 := by
  have : b.1 - a.1 ≠ 0 := by linarith
  simp [lin, this]

theorem dens_continuous (y0 : ℝ) (a b : Pt) : Continuous (dens y0 a b) := by
  unfold dens lin
  split_ifs
  · fun_prop
  · fun_prop

/-- The integral up to t, straight piece. -/
theorem int_line (y0 : ℝ) (a b : Pt) (h : a.1 < b.1) (hy : |b.2 - a.2| < YEPS) (t : ℝ) :
    ∫ x in a.1..t, dens y0 a b x = (t - a.1) * Real.exp (a.2 - y0 + 50) + (t - a.1) ^ 2 / (2 * (b.1 - a.1)) * (Real.exp (b.2 - y0 + 50) - Real.exp (a.2 - y0 + 50)) := by
  have hne : b.1 - a.1 ≠ 0 := by linarith
  have e : ∀ x ∈ uIcc a.1 t, HasDerivAt (fun x => (x - a.1) * Real.exp (a.2 - y0 + 50) + (x - a.1) ^ 2 / (2 * (b.1 - a.1)) * (Real.exp (b.2 - y0 + 50) - Real.exp (a.2 - y0 + 50))) (dens y0 a b x) x := by
    intro x _
    have h1 : HasDerivAt (fun x : ℝ => x - a.1) 1 x := (hasDerivAt_id x).sub_const _
    have h2 := ((h1.mul_const (Real.exp (a.2 - y0 + 50))).add (((h1.pow 2).div_const (2 * (b.1 - a.1))).mul_const (Real.exp (b.2 - y0 + 50) - Real.exp (a.2 - y0 + 50))))
    refine h2.congr_deriv ?_
    unfold dens
    rw [if_pos hy]
    field_simp
    simp
    ring
  rw [intervalIntegral.integral_eq_sub_of_hasDerivAt e ((dens_continuous y0 a b).intervalIntegrable _ _)]
  simp

/-- The integral up to t, exponential piece. -/
theorem int_exp (y0 : ℝ) (a b : Pt) (h : a.1 < b.1) (hy : ¬ |b.2 - a.2| < YEPS) (t : ℝ) :
    ∫ x in a.1..t, dens y0 a b x = (dens y0 a b t - Real.exp (a.2 - y0 + 50)) / (b.2 - a.2) * (b.1 - a.1) := by
  have hne : b.1 - a.1 ≠ 0 := by linarith
  have hyn : b.2 - a.2 ≠ 0 := by
    intro h0
    apply hy
    rw [h0, abs_zero, YEPS]
    norm_num
  have hd : ∀ x, dens y0 a b x = Real.exp (lin a b x - y0 + 50) := fun x => by unfold dens; rw [if_neg hy]
  have e : ∀ x ∈ uIcc a.1 t, HasDerivAt (fun x => Real.exp (lin a b x - y0 + 50) * ((b.1 - a.1) / (b.2 - a.2))) (dens y0 a b x) x := by
    intro x _
    have h1 : HasDerivAt (fun x : ℝ => lin a b x - y0 + 50) (1 / (b.1 - a.1) * (b.2 - a.2)) x := by
      unfold lin
      exact (((((hasDerivAt_id x).sub_const a.1).div_const _).mul_const _).const_add _).sub_const _ |>.add_const _
    refine ((h1.exp).mul_const ((b.1 - a.1) / (b.2 - a.2))).congr_deriv ?_
    rw [hd]
    field_simp
  rw [intervalIntegral.integral_eq_sub_of_hasDerivAt e ((dens_continuous y0 a b).intervalIntegrable _ _), hd, lin_left]
  field_simp

/-- C154: the area of a piece is the integral of the (shifted, exponentiated) envelope over it. -/
theorem area_eq (y0 : ℝ) (a b : Pt) (h : a.1 ≤ b.1) (ha : Near y0 a) (hb : Near y0 b) : area y0 a b = ∫ x in a.1..b.1, dens y0 a b x := by
  unfold area
  rcases h.eq_or_lt with h | h
  · rw [if_pos h, h]; simp
  · rw [if_neg h.ne, expshift_near ha, expshift_near hb]
    have hne : b.1 - a.1 ≠ 0 := by linarith
    split_ifs with hy
    · rw [int_line y0 a b h hy]
      field_simp
      ring
    · rw [int_exp y0 a b h hy]
      unfold dens
      rw [if_neg hy, lin_right a b h]

theorem mix_pos {u v p : ℝ} (hu : 0 < u) (hv : 0 < v) (h0 : 0 ≤ p) (h1 : p ≤ 1) : 0 < (1 - p) * u + p * v := by
  rcases h0.eq_or_lt with rfl | h0
  · simpa using hu
  · have := mul_pos h0 hv
    have := mul_nonneg (sub_nonneg.mpr h1) hu.le
    linarith

theorem div_between {u v w : ℝ} (hne : u ≠ v) (h : (u ≤ w ∧ w ≤ v) ∨ (v ≤ w ∧ w ≤ u)) : 0 ≤ (w - u) / (v - u) ∧ (w - u) / (v - u) ≤ 1 := by
  rcases lt_or_gt_of_ne hne with h1 | h1
  · have hp : 0 < v - u := by linarith
    constructor
    · apply div_nonneg _ hp.le
      rcases h with h | h <;> linarith
    · rw [div_le_one hp]
      rcases h with h | h <;> linarith
  · have hp : 0 < u - v := by linarith
    have e : (w - u) / (v - u) = (u - w) / (u - v) := by rw [← neg_sub, ← neg_sub u v, neg_div_neg_eq]
    rw [e]
    constructor
    · apply div_nonneg _ hp.le
      rcases h with h | h <;> linarith
    · rw [div_le_one hp]
      rcases h with h | h <;> linarith

theorem frac_mem {xa xb r : ℝ} (h : xa < xb) (h0 : 0 ≤ r) (h1 : r ≤ 1) : xa ≤ xa + (xb - xa) * r ∧ xa + (xb - xa) * r ≤ xb := by
  constructor <;> nlinarith

/-- An exponential piece: the inverse is exact. -/
theorem inv_exp (y0 : ℝ) (a b : Pt) (h : a.1 < b.1) (ha : Near y0 a) (hb : Near y0 b) (hy : ¬ |b.2 - a.2| < YEPS) (p : ℝ) (h0 : 0 ≤ p) (h1 : p ≤ 1) :
    a.1 ≤ invX y0 a b p ∧ invX y0 a b p ≤ b.1 ∧ ∫ x in a.1..invX y0 a b p, dens y0 a b x = p * area y0 a b := by
  have hne : b.1 - a.1 ≠ 0 := by linarith
  have hyn : b.2 - a.2 ≠ 0 := by
    intro h0
    apply hy
    rw [h0, abs_zero, YEPS]
    norm_num
  have hw := mix_pos (Real.exp_pos (a.2 - y0 + 50)) (Real.exp_pos (b.2 - y0 + 50)) h0 h1
  have hX : invX y0 a b p = a.1 + (b.1 - a.1) * ((logshift ((1 - p) * Real.exp (a.2 - y0 + 50) + p * Real.exp (b.2 - y0 + 50)) y0 - a.2) / (b.2 - a.2)) := by
    unfold invX
    rw [if_neg h.ne, if_neg hy, expshift_near ha, expshift_near hb]
    field_simp
    ring
  have hL : lin a b (invX y0 a b p) = logshift ((1 - p) * Real.exp (a.2 - y0 + 50) + p * Real.exp (b.2 - y0 + 50)) y0 := by
    rw [lin, hX]
    field_simp
    ring
  have hD : dens y0 a b (invX y0 a b p) = (1 - p) * Real.exp (a.2 - y0 + 50) + p * Real.exp (b.2 - y0 + 50) := by
    unfold dens
    rw [if_neg hy, hL, logshift, YCEIL]
    rw [show ∀ z : ℝ, z + y0 - 50 - y0 + 50 = z by intro z; ring, Real.exp_log hw]
  have hfr : 0 ≤ (logshift ((1 - p) * Real.exp (a.2 - y0 + 50) + p * Real.exp (b.2 - y0 + 50)) y0 - a.2) / (b.2 - a.2) ∧ (logshift ((1 - p) * Real.exp (a.2 - y0 + 50) + p * Real.exp (b.2 - y0 + 50)) y0 - a.2) / (b.2 - a.2) ≤ 1 := by
    apply div_between (fun h => hyn (by rw [h]; ring))
    have ea : a.2 = logshift (Real.exp (a.2 - y0 + 50)) y0 := by rw [logshift, Real.log_exp, YCEIL]; ring
    have eb : b.2 = logshift (Real.exp (b.2 - y0 + 50)) y0 := by rw [logshift, Real.log_exp, YCEIL]; ring
    have mono : ∀ u v : ℝ, 0 < u → u ≤ v → logshift u y0 ≤ logshift v y0 := fun u v hu huv => by
      have := Real.log_le_log hu huv
      unfold logshift
      linarith
    rcases le_total a.2 b.2 with hab | hab
    · left
      have hE : Real.exp (a.2 - y0 + 50) ≤ Real.exp (b.2 - y0 + 50) := Real.exp_le_exp.mpr (by linarith)
      constructor
      · conv_lhs => rw [ea]
        exact mono _ _ (Real.exp_pos _) (by nlinarith)
      · conv_rhs => rw [eb]
        exact mono _ _ hw (by nlinarith)
    · right
      have hE : Real.exp (b.2 - y0 + 50) ≤ Real.exp (a.2 - y0 + 50) := Real.exp_le_exp.mpr (by linarith)
      constructor
      · conv_lhs => rw [eb]
        exact mono _ _ (Real.exp_pos _) (by nlinarith)
      · conv_rhs => rw [ea]
        exact mono _ _ hw (by nlinarith)
  refine ⟨?_, ?_, ?_⟩
  · rw [hX]; exact (frac_mem h hfr.1 hfr.2).1
  · rw [hX]; exact (frac_mem h hfr.1 hfr.2).2
  · rw [int_exp y0 a b h hy, hD]
    unfold area
    rw [if_neg h.ne, if_neg hy, expshift_near ha, expshift_near hb]
    ring

/-- A straight piece that isn't flat: exact. -/
theorem inv_line (y0 : ℝ) (a b : Pt) (h : a.1 < b.1) (ha : Near y0 a) (hb : Near y0 b) (hy : |b.2 - a.2| < YEPS)
    (he : |expshift b.2 y0 - expshift a.2 y0| > EYEPS * |expshift b.2 y0 + expshift a.2 y0|) (p : ℝ) (h0 : 0 ≤ p) (h1 : p ≤ 1) :
    a.1 ≤ invX y0 a b p ∧ invX y0 a b p ≤ b.1 ∧ ∫ x in a.1..invX y0 a b p, dens y0 a b x = p * area y0 a b := by
  have hne : b.1 - a.1 ≠ 0 := by linarith
  have hX0 : invX y0 a b p = a.1 + (b.1 - a.1) / (expshift b.2 y0 - expshift a.2 y0) * (-expshift a.2 y0 + Real.sqrt ((1 - p) * expshift a.2 y0 * expshift a.2 y0 + p * expshift b.2 y0 * expshift b.2 y0)) := by
    unfold invX
    rw [if_neg h.ne, if_pos hy, if_pos he]
  have hA : area y0 a b = 1 / 2 * (expshift b.2 y0 + expshift a.2 y0) * (b.1 - a.1) := by
    unfold area
    rw [if_neg h.ne, if_pos hy]
  rw [int_line y0 a b h hy, hX0, hA]
  rw [expshift_near ha, expshift_near hb] at he ⊢
  have pa := Real.exp_pos (a.2 - y0 + 50)
  have pb := Real.exp_pos (b.2 - y0 + 50)
  generalize Real.exp (a.2 - y0 + 50) = ea at *
  generalize Real.exp (b.2 - y0 + 50) = eb at *
  have hen : eb - ea ≠ 0 := by
    intro h
    rw [h, abs_zero] at he
    have : 0 ≤ EYEPS * |eb + ea| := by unfold EYEPS; positivity
    linarith
  have hin : 0 ≤ (1 - p) * ea * ea + p * eb * eb := by
    have := mul_nonneg (sub_nonneg.mpr h1) (mul_self_nonneg ea)
    have := mul_nonneg h0 (mul_self_nonneg eb)
    nlinarith
  have hsq : Real.sqrt ((1 - p) * ea * ea + p * eb * eb) ^ 2 = (1 - p) * ea * ea + p * eb * eb := Real.sq_sqrt hin
  have hs0 := Real.sqrt_nonneg ((1 - p) * ea * ea + p * eb * eb)
  generalize Real.sqrt ((1 - p) * ea * ea + p * eb * eb) = s at *
  have hfr : 0 ≤ (s - ea) / (eb - ea) ∧ (s - ea) / (eb - ea) ≤ 1 := by
    apply div_between (fun h => hen (by rw [h]; ring))
    rcases le_total ea eb with hab | hab
    · left
      have : ea * ea ≤ eb * eb := mul_self_le_mul_self pa.le hab
      constructor
      · apply le_of_sq_le_sq _ hs0
        nlinarith [mul_nonneg h0 (sub_nonneg.mpr this)]
      · apply le_of_sq_le_sq _ pb.le
        nlinarith [mul_nonneg (sub_nonneg.mpr h1) (sub_nonneg.mpr this)]
    · right
      have : eb * eb ≤ ea * ea := mul_self_le_mul_self pb.le hab
      constructor
      · apply le_of_sq_le_sq _ hs0
        nlinarith [mul_nonneg (sub_nonneg.mpr h1) (sub_nonneg.mpr this)]
      · apply le_of_sq_le_sq _ pa.le
        nlinarith [mul_nonneg h0 (sub_nonneg.mpr this)]
  have hX : a.1 + (b.1 - a.1) / (eb - ea) * (-ea + s) = a.1 + (b.1 - a.1) * ((s - ea) / (eb - ea)) := by
    field_simp
    ring
  rw [hX]
  refine ⟨(frac_mem h hfr.1 hfr.2).1, (frac_mem h hfr.1 hfr.2).2, ?_⟩
  have e1 : a.1 + (b.1 - a.1) * ((s - ea) / (eb - ea)) - a.1 = (b.1 - a.1) * ((s - ea) / (eb - ea)) := by ring
  rw [e1]
  generalize b.1 - a.1 = w at *
  field_simp
  linear_combination hsq

/-- A flat piece: the inverse is off by at most a four-thousandth of the area. -/
theorem inv_flat (y0 : ℝ) (a b : Pt) (h : a.1 < b.1) (ha : Near y0 a) (hb : Near y0 b) (hy : |b.2 - a.2| < YEPS)
    (he : ¬ |expshift b.2 y0 - expshift a.2 y0| > EYEPS * |expshift b.2 y0 + expshift a.2 y0|) (p : ℝ) (h0 : 0 ≤ p) (h1 : p ≤ 1) :
    a.1 ≤ invX y0 a b p ∧ invX y0 a b p ≤ b.1 ∧ |(∫ x in a.1..invX y0 a b p, dens y0 a b x) - p * area y0 a b| ≤ area y0 a b / 4000 := by
  have hX0 : invX y0 a b p = a.1 + (b.1 - a.1) * p := by
    unfold invX
    rw [if_neg h.ne, if_pos hy, if_neg he]
  have hA : area y0 a b = 1 / 2 * (expshift b.2 y0 + expshift a.2 y0) * (b.1 - a.1) := by
    unfold area
    rw [if_neg h.ne, if_pos hy]
  rw [int_line y0 a b h hy, hX0, hA]
  rw [expshift_near ha, expshift_near hb] at he ⊢
  have pa := Real.exp_pos (a.2 - y0 + 50)
  have pb := Real.exp_pos (b.2 - y0 + 50)
  generalize Real.exp (a.2 - y0 + 50) = ea at *
  generalize Real.exp (b.2 - y0 + 50) = eb at *
  refine ⟨(frac_mem h h0 h1).1, (frac_mem h h0 h1).2, ?_⟩
  have hw : 0 < b.1 - a.1 := by linarith
  have e1 : a.1 + (b.1 - a.1) * p - a.1 = (b.1 - a.1) * p := by ring
  rw [e1]
  generalize b.1 - a.1 = w at *
  have e2 : w * p * ea + (w * p) ^ 2 / (2 * w) * (eb - ea) - p * (1 / 2 * (eb + ea) * w) = - (w / 2 * (p * (1 - p)) * (eb - ea)) := by
    field_simp
    ring
  rw [e2, abs_neg, abs_mul, abs_of_nonneg (by have := mul_nonneg h0 (sub_nonneg.mpr h1); positivity)]
  have h4 : p * (1 - p) ≤ 1 / 4 := by nlinarith [sq_nonneg (p - 1 / 2)]
  have h5 : |eb - ea| ≤ 1 / 1000 * (eb + ea) := by
    have := not_lt.mp he
    rwa [EYEPS, abs_of_pos (show 0 < eb + ea by linarith)] at this
  calc w / 2 * (p * (1 - p)) * |eb - ea| ≤ w / 2 * (1 / 4) * (1 / 1000 * (eb + ea)) := by
        apply mul_le_mul _ h5 (abs_nonneg _) (by positivity)
        exact mul_le_mul_of_nonneg_left h4 (by positivity)
    _ = 1 / 2 * (eb + ea) * w / 4000 := by ring

theorem area_nonneg (y0 : ℝ) (a b : Pt) (h : a.1 ≤ b.1) : 0 ≤ area y0 a b := by
  unfold area
  split_ifs with h1 h2
  · exact le_refl _
  · have e : ∀ y, 0 ≤ expshift y y0 := fun y => by unfold expshift; split_ifs; exact (Real.exp_pos _).le; exact le_refl _
    have := e a.2
    have := e b.2
    have : 0 ≤ b.1 - a.1 := by linarith
    positivity
  · have mono : ∀ u v : ℝ, u ≤ v → expshift u y0 ≤ expshift v y0 := fun u v huv => by
      unfold expshift
      split_ifs
      · exact Real.exp_le_exp.mpr (by linarith)
      · linarith
      · exact (Real.exp_pos _).le
      · exact le_refl _
    apply mul_nonneg _ (by linarith)
    rcases le_total a.2 b.2 with hab | hab
    · exact div_nonneg (by linarith [mono _ _ hab]) (by linarith)
    · exact div_nonneg_of_nonpos (by linarith [mono _ _ hab]) (by linarith)

theorem area_pos (y0 : ℝ) (a b : Pt) (h : a.1 < b.1) (ha : Near y0 a) (hb : Near y0 b) : 0 < area y0 a b := by
  rw [area_eq y0 a b h.le ha hb]
  apply intervalIntegral.intervalIntegral_pos_of_pos_on ((dens_continuous y0 a b).intervalIntegrable _ _) _ h
  intro x hx
  unfold dens
  split_ifs
  · have hw : 0 < b.1 - a.1 := by linarith
    have hr : 0 ≤ (x - a.1) / (b.1 - a.1) := div_nonneg (by linarith [hx.1]) hw.le
    have hr1 : (x - a.1) / (b.1 - a.1) ≤ 1 := by rw [div_le_one hw]; linarith [hx.2]
    have := mix_pos (Real.exp_pos (a.2 - y0 + 50)) (Real.exp_pos (b.2 - y0 + 50)) hr hr1
    linarith
  · exact Real.exp_pos _

end Apop.Arms
