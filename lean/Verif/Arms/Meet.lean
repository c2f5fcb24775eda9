import Verif.Base.C
import Mathlib.Analysis.Convex.Slope
import Mathlib.Data.Real.Basic
import Mathlib.Tactic.FieldSimp
import Mathlib.Tactic.Linarith
import Mathlib.Tactic.Positivity

/-! # C152: the envelope of adaptive rejection sampling (apop_arms.c)

Exact arithmetic. A point is (x, y). -/

namespace Apop.Arms

open Set

abbrev Pt := ℝ × ℝ

/-- `YEPS`, apop_arms.c:10. -/
noncomputable def YEPS : ℝ := 1 / 10

/-- The gradient of a chord, as at apop_arms.c:431. -/
noncomputable def grad (a b : Pt) : ℝ := (a.2 - b.2) / (a.1 - b.1)

/-- `if(dr < YEPS) dr = YEPS`, apop_arms.c:464, 470. -/
noncomputable def clip (d : ℝ) : ℝ := if d < YEPS then YEPS else d

/-- `gl`, `il`, `dr` at apop_arms.c:429-434, 450-455, 462-466: how far above `r` the chord from the left ends. Outer `none`: violation without metropolis; inner `none`: no chord on the left. -/
noncomputable def leftD (metro : Bool) (convex : ℝ) (ll : Option Pt) (l r : Pt) : Option (Option ℝ) :=
  match ll with
  | none => some none
  | some a =>
    if grad l a < grad r l then
      (if metro then some (some (clip ((grad l a + (1 + convex) * (grad r l - grad l a) - grad r l) * (r.1 - l.1)))) else none)
    else some (some (clip ((grad l a - grad r l) * (r.1 - l.1))))

/-- `gr`, `ir`, `dl` at apop_arms.c:436-441, 457-460, 468-472: how far above `l` the chord from the right ends. -/
noncomputable def rightD (metro : Bool) (convex : ℝ) (l r : Pt) (rr : Option Pt) : Option (Option ℝ) :=
  match rr with
  | none => some none
  | some b =>
    if grad r b > grad r l then
      (if metro then some (some (clip ((grad r l - (grad r b + (1 + convex) * (grad r l - grad r b))) * (r.1 - l.1)))) else none)
    else some (some (clip ((grad r l - grad r b) * (r.1 - l.1))))

/-- The intersection of the chords, apop_arms.c:474-486. The fourth case is error 31. -/
noncomputable def cross (l r : Pt) : Option ℝ → Option ℝ → Option Pt
  | some dr, some dl => some ((dl * r.1 + dr * l.1) / (dl + dr), (dl * r.2 + dr * l.2 + dl * dr) / (dl + dr))
  | some dr, none => some (r.1, r.2 + dr)
  | none, some dl => some (l.1, l.2 + dl)
  | none, none => none

/-- `meet`, apop_arms.c:416-498, for a point `q` between `l` (`q->pl`) and `r` (`q->pr`), with `ll` and `rr` the next points on the log density; without `l` or `r` it is a bound, whose x is `x0`. `none`: it fails. -/
noncomputable def meet (metro : Bool) (convex x0 : ℝ) (ll l r rr : Option Pt) : Option Pt :=
  match l, r with
  | some l, some r => (leftD metro convex ll l r).bind fun dr => (rightD metro convex l r rr).bind fun dl => cross l r dr dl
  | some l, none => ll.bind fun a => some (x0, l.2 + grad l a * (x0 - l.1))
  | none, some r => rr.bind fun b => some (x0, r.2 - grad r b * (r.1 - x0))
  | none, none => none

/-- The height of the line from `a` to `b` at `x`, apop_arms.c:300-301. -/
noncomputable def lin (a b : Pt) (x : ℝ) : ℝ := a.2 + (x - a.1) / (b.1 - a.1) * (b.2 - a.2)

/-- The height of the envelope at `x`, apop_arms.c:294-301: `while(ql->pr->x < x) ql = ql->pr`. -/
noncomputable def height : List Pt → ℝ → ℝ
  | a :: b :: l, x => if b.1 < x then height (b :: l) x else lin a b x
  | _, _ => 0

/-! ### Geometry -/

theorem clip_ge (d : ℝ) : d ≤ clip d ∧ 0 < clip d := by
  unfold clip YEPS
  split_ifs with h
  · constructor <;> linarith
  · constructor
    · exact le_refl _
    · linarith

variable {f : ℝ → ℝ} {s : Set ℝ}

/-- Beyond y a concave function is below the chord of x and y. -/
theorem below_right (hf : ConcaveOn ℝ s f) {a l x : ℝ} (ha : a ∈ s) (hx : x ∈ s) (h1 : a < l) (h2 : l ≤ x) :
    f x ≤ f l + (f l - f a) / (l - a) * (x - l) := by
  rcases h2.eq_or_lt with rfl | h2
  · simp
  · have := hf.slope_anti_adjacent ha hx h1 h2
    rw [div_le_iff₀ (by linarith)] at this
    linarith

/-- Before x, below the chord of x and y. -/
theorem below_left (hf : ConcaveOn ℝ s f) {x r b : ℝ} (hx : x ∈ s) (hb : b ∈ s) (h1 : x ≤ r) (h2 : r < b) :
    f x ≤ f r - (f r - f b) / (r - b) * (r - x) := by
  rcases h1.eq_or_lt with rfl | h1
  · simp
  · have := hf.slope_anti_adjacent hx hb h1 h2
    rw [le_div_iff₀ (by linarith)] at this
    have e : (f r - f b) / (r - b) = (f b - f r) / (b - r) := by
      rw [← neg_sub, ← neg_sub b r, neg_div_neg_eq]
    rw [e]
    linarith

/-- The gradient to the left isn't less than the gradient across. -/
theorem grad_left (hf : ConcaveOn ℝ s f) {a l r : ℝ} (ha : a ∈ s) (hr : r ∈ s) (h1 : a < l) (h2 : l < r) :
    ¬ grad (l, f l) (a, f a) < grad (r, f r) (l, f l) := by
  have := hf.slope_anti_adjacent ha hr h1 h2
  simp only [grad, not_lt]
  exact this

theorem grad_right (hf : ConcaveOn ℝ s f) {l r b : ℝ} (hl : l ∈ s) (hb : b ∈ s) (h1 : l < r) (h2 : r < b) :
    ¬ grad (r, f r) (b, f b) > grad (r, f r) (l, f l) := by
  have := hf.slope_anti_adjacent hl hb h1 h2
  simp only [grad, gt_iff_lt, not_lt]
  have e : (f r - f b) / (r - b) = (f b - f r) / (b - r) := by
    rw [← neg_sub, ← neg_sub b r, neg_div_neg_eq]
  rw [e]
  exact this

/-- Height over a piece l – q – r. -/
def Over (f : ℝ → ℝ) (l q r : Pt) : Prop := l.1 ≤ q.1 ∧ q.1 ≤ r.1 ∧ ∀ x, l.1 ≤ x → x ≤ r.1 → f x ≤ if q.1 < x then lin q r x else lin l q x

theorem over_cross_both (l r : Pt) (hlr : l.1 < r.1) (dr dl : ℝ) (hdr : 0 < dr) (hdl : 0 < dl)
    (hL : ∀ x, l.1 ≤ x → x ≤ r.1 → f x ≤ l.2 + ((r.2 - l.2) + dr) * ((x - l.1) / (r.1 - l.1)))
    (hR : ∀ x, l.1 ≤ x → x ≤ r.1 → f x ≤ r.2 + ((l.2 - r.2) + dl) * ((r.1 - x) / (r.1 - l.1))) :
    Over f l ((dl * r.1 + dr * l.1) / (dl + dr), (dl * r.2 + dr * l.2 + dl * dr) / (dl + dr)) r := by
  have hD : 0 < dl + dr := by linarith
  have hW : 0 < r.1 - l.1 := by linarith
  have e1 : (dl * r.1 + dr * l.1) / (dl + dr) - l.1 = dl * (r.1 - l.1) / (dl + dr) := by field_simp; ring
  have e2 : r.1 - (dl * r.1 + dr * l.1) / (dl + dr) = dr * (r.1 - l.1) / (dl + dr) := by field_simp; ring
  have p1 : 0 < dl * (r.1 - l.1) / (dl + dr) := by positivity
  have p2 : 0 < dr * (r.1 - l.1) / (dl + dr) := by positivity
  refine ⟨by simp only; linarith, by simp only; linarith, fun x h1 h2 => ?_⟩
  simp only [lin]
  split_ifs with h
  · refine (hR x h1 h2).trans (le_of_eq ?_)
    rw [e2]
    have hne := hW.ne'
    have hx : x - (dl * r.1 + dr * l.1) / (dl + dr) = dr * (r.1 - l.1) / (dl + dr) - (r.1 - x) := by linarith
    rw [hx]
    generalize r.1 - l.1 = w at *
    generalize r.1 - x = z at *
    field_simp
    ring
  · refine (hL x h1 h2).trans (le_of_eq ?_)
    rw [e1]
    have hne := hW.ne'
    generalize r.1 - l.1 = w at *
    generalize x - l.1 = z at *
    field_simp
    ring

theorem over_cross_left (l r : Pt) (hlr : l.1 < r.1) (dr : ℝ)
    (hL : ∀ x, l.1 ≤ x → x ≤ r.1 → f x ≤ l.2 + ((r.2 - l.2) + dr) * ((x - l.1) / (r.1 - l.1))) : Over f l (r.1, r.2 + dr) r := by
  refine ⟨hlr.le, le_refl _, fun x h1 h2 => ?_⟩
  rw [if_neg (not_lt.mpr h2)]
  refine (hL x h1 h2).trans (le_of_eq ?_)
  simp only [lin]
  ring

theorem over_cross_right (l r : Pt) (hlr : l.1 < r.1) (dl : ℝ) (hdl : 0 < dl) (hl : f l.1 = l.2)
    (hR : ∀ x, l.1 ≤ x → x ≤ r.1 → f x ≤ r.2 + ((l.2 - r.2) + dl) * ((r.1 - x) / (r.1 - l.1))) : Over f l (l.1, l.2 + dl) r := by
  refine ⟨le_refl _, hlr.le, fun x h1 h2 => ?_⟩
  simp only
  split_ifs with h
  · refine (hR x h1 h2).trans (le_of_eq ?_)
    have hne : r.1 - l.1 ≠ 0 := by linarith
    simp only [lin]
    field_simp
    ring
  · have hx : x = l.1 := le_antisymm (not_lt.mp h) h1
    rw [hx, hl]
    simp [lin]

/-- A point on the graph. -/
def On (f : ℝ → ℝ) (p : Pt) : Prop := p.2 = f p.1

/-- For a log-concave density `meet` between two points succeeds, and the two lines it gives are nowhere below the log density. -/
theorem meet_over (hf : ConcaveOn ℝ s f) (hs : OrdConnected s) (metro : Bool) (convex x0 : ℝ) (ll rr : Option Pt) (l r : Pt) (hl : On f l) (hr : On f r) (hls : l.1 ∈ s) (hrs : r.1 ∈ s) (hlr : l.1 < r.1)
    (hll : ∀ a, ll = some a → On f a ∧ a.1 ∈ s ∧ a.1 < l.1) (hrr : ∀ b, rr = some b → On f b ∧ b.1 ∈ s ∧ r.1 < b.1) (hne : ll ≠ none ∨ rr ≠ none) :
    ∃ q, meet metro convex x0 ll (some l) (some r) rr = some q ∧ Over f l q r := by
  have hW : 0 < r.1 - l.1 := by linarith
  obtain ⟨lx, ly⟩ := l
  obtain ⟨rx, ry⟩ := r
  simp only [On] at hl hr
  subst hl hr
  simp only at hls hrs hlr hW hll hrr
  have hin : ∀ x, lx ≤ x → x ≤ rx → x ∈ s := fun x h1 h2 => hs.out hls hrs ⟨h1, h2⟩
  have HL : ∀ a, ll = some a → ∃ dr, leftD metro convex ll (lx, f lx) (rx, f rx) = some (some dr) ∧ 0 < dr ∧
      ∀ x, lx ≤ x → x ≤ rx → f x ≤ f lx + ((f rx - f lx) + dr) * ((x - lx) / (rx - lx)) := by
    rintro ⟨ax, ay⟩ ha
    obtain ⟨h1, h2, h3⟩ := hll _ ha
    simp only [On] at h1 h2 h3
    subst h1
    refine ⟨_, by rw [ha, leftD, if_neg (grad_left hf h2 hrs h3 hlr)], (clip_ge _).2, fun x hx1 hx2 => ?_⟩
    refine (below_right hf h2 (hin x hx1 hx2) h3 hx1).trans ?_
    have hc := (clip_ge ((grad (lx, f lx) (ax, f ax) - grad (rx, f rx) (lx, f lx)) * (rx - lx))).1
    simp only [grad] at hc ⊢
    have hz : 0 ≤ (x - lx) / (rx - lx) := div_nonneg (by linarith) hW.le
    have := mul_le_mul_of_nonneg_right hc hz
    have e : ((f lx - f ax) / (lx - ax) - (f rx - f lx) / (rx - lx)) * (rx - lx) * ((x - lx) / (rx - lx)) = (f lx - f ax) / (lx - ax) * (x - lx) - (f rx - f lx) * ((x - lx) / (rx - lx)) := by
      field_simp
    rw [e] at this
    linarith
  have HR : ∀ b, rr = some b → ∃ dl, rightD metro convex (lx, f lx) (rx, f rx) rr = some (some dl) ∧ 0 < dl ∧
      ∀ x, lx ≤ x → x ≤ rx → f x ≤ f rx + ((f lx - f rx) + dl) * ((rx - x) / (rx - lx)) := by
    rintro ⟨bx, bY⟩ hb
    obtain ⟨h1, h2, h3⟩ := hrr _ hb
    simp only [On] at h1 h2 h3
    subst h1
    refine ⟨_, by rw [hb, rightD, if_neg (grad_right hf hls h2 hlr h3)], (clip_ge _).2, fun x hx1 hx2 => ?_⟩
    refine (below_left hf (hin x hx1 hx2) h2 hx2 h3).trans ?_
    have hc := (clip_ge ((grad (rx, f rx) (lx, f lx) - grad (rx, f rx) (bx, f bx)) * (rx - lx))).1
    simp only [grad] at hc ⊢
    have hz : 0 ≤ (rx - x) / (rx - lx) := div_nonneg (by linarith) hW.le
    have := mul_le_mul_of_nonneg_right hc hz
    have e : ((f rx - f lx) / (rx - lx) - (f rx - f bx) / (rx - bx)) * (rx - lx) * ((rx - x) / (rx - lx)) = (f rx - f lx) * ((rx - x) / (rx - lx)) - (f rx - f bx) / (rx - bx) * (rx - x) := by
      field_simp
    rw [e] at this
    linarith
  rw [meet]
  cases hlc : ll with
  | none =>
    cases hrc : rr with
    | none => simp [hlc, hrc] at hne
    | some b =>
      obtain ⟨dl, h1, h2, h3⟩ := HR b hrc
      rw [hrc] at h1
      refine ⟨(lx, f lx + dl), by rw [h1]; rfl, over_cross_right _ _ hlr dl h2 rfl h3⟩
  | some a =>
    obtain ⟨dr, h1, h2, h3⟩ := HL a hlc
    rw [hlc] at h1
    cases hrc : rr with
    | none =>
      refine ⟨(rx, f rx + dr), by rw [h1]; rfl, over_cross_left (lx, f lx) (rx, f rx) hlr dr h3⟩
    | some b =>
      obtain ⟨dl, h4, h5, h6⟩ := HR b hrc
      rw [hrc] at h4
      refine ⟨_, by rw [h1, h4]; rfl, over_cross_both _ _ hlr dr dl h2 h5 h3 h6⟩

end Apop.Arms
