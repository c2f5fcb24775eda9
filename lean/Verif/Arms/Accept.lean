import Verif.Arms.Test

/-! # C155: the tests (apop_arms.c) -/

namespace Apop.Arms

open Set

/-- `y < t` where `y = logshift(w, y0)`; the logarithm of 0 is −∞. -/
def logLt (w y0 t : ℝ) : Prop := w ≤ 0 ∨ logshift w y0 < t

/-- `y <= t`, likewise. -/
def logLe (w y0 t : ℝ) : Prop := w ≤ 0 ∨ logshift w y0 ≤ t

/-- `ysqueez`, apop_arms.c:261-262. -/
noncomputable def squeeze (l r : Pt) (x : ℝ) : ℝ := (r.2 * (x - l.1) + l.2 * (r.1 - x)) / (r.1 - l.1)

/-- `ql` and `qr` of the squeezing test, apop_arms.c:256-260: the points on the log density on the two sides, but not for a piece that ends at a bound. -/
def chord (e : Env) (k : ℕ) : Option (Pt × Pt) := if 1 ≤ k then (e.ds[k - 1]?).bind fun l => (e.ds[k]?).bind fun r => some (l, r) else none

open Classical in
/-- `test` without Metropolis, apop_arms.c:250-283: is the point accepted? `u` is the uniform number, `ey` the envelope's height. -/
noncomputable def testPlain (F : ℝ → ℝ) (y0 : ℝ) (sq : Option (Pt × Pt)) (x ey u : ℝ) : Bool :=
  match sq with
  | some (l, r) => if logLe (u * ey) y0 (squeeze l r x) then true else decide (logLt (u * ey) y0 (F x))
  | none => decide (logLt (u * ey) y0 (F x))

/-- `zold`, `znew` and `w`, apop_arms.c:291-303, for the envelope's heights `hOld` at the previous point and `hNew` at the new. -/
noncomputable def ratio (yold hOld ynew hNew : ℝ) : ℝ := min (ynew - (if ynew < hNew then ynew else hNew) - yold + (if yold < hOld then yold else hOld)) 0

/-- `w = (w > -YCEIL) ? exp(w) : 0.0`, apop_arms.c:304. -/
noncomputable def cut (w : ℝ) : ℝ := if w > -YCEIL then Real.exp w else 0

open Classical in
/-- `test` with Metropolis steps, apop_arms.c:250-322. `none`: rejected (and the envelope updated); else the point given out, which is also the new previous point. `hNew` is `p->y`. -/
noncomputable def testMetro (F : ℝ → ℝ) (y0 : ℝ) (ns : List Pt) (xprev yprev x hNew ey u u2 : ℝ) : Option Pt :=
  if logLt (u * ey) y0 (F x) then
    if u2 > cut (ratio yprev (height ns xprev) (F x) hNew) then some (xprev, yprev) else some (x, F x)
  else none

theorem logLt_iff {w y0 t : ℝ} : logLt w y0 t ↔ w < Real.exp (t - y0 + 50) := by
  unfold logLt logshift YCEIL
  rcases le_or_gt w 0 with h | h
  · simp [h, lt_of_le_of_lt h (Real.exp_pos _)]
  · rw [← Real.log_lt_iff_lt_exp h]
    constructor
    · rintro (h' | h')
      · linarith
      · linarith
    · intro h'; right; linarith

theorem logLe_iff {w y0 t : ℝ} : logLe w y0 t ↔ w ≤ Real.exp (t - y0 + 50) := by
  unfold logLe logshift YCEIL
  rcases le_or_gt w 0 with h | h
  · simp [h, h.trans (Real.exp_pos _).le]
  · rw [← Real.log_le_iff_le_exp h]
    constructor
    · rintro (h' | h')
      · linarith
      · linarith
    · intro h'; right; linarith

/-- For a concave log density the squeezing chord is below it. -/
theorem squeeze_le {F : ℝ → ℝ} {s : Set ℝ} (hF : ConcaveOn ℝ s F) (l r : Pt) (hl : On F l) (hr : On F r) (hls : l.1 ∈ s) (hrs : r.1 ∈ s) (hlr : l.1 < r.1) (x : ℝ) (h1 : l.1 ≤ x) (h2 : x ≤ r.1) : squeeze l r x ≤ F x := by
  have hw : 0 < r.1 - l.1 := by linarith
  have := hF.2 hls hrs (div_nonneg (by linarith : (0 : ℝ) ≤ r.1 - x) hw.le) (div_nonneg (by linarith : (0 : ℝ) ≤ x - l.1) hw.le) (by field_simp; ring)
  simp only [smul_eq_mul] at this
  have e : (r.1 - x) / (r.1 - l.1) * l.1 + (x - l.1) / (r.1 - l.1) * r.1 = x := by field_simp; ring
  rw [e, ← hl, ← hr] at this
  refine le_trans (le_of_eq ?_) this
  rw [squeeze]
  field_simp
  ring

/-- C155: the verdict without Metropolis, for a log-concave density and any envelope that comes up: a point x is accepted if u times the envelope's height is below the (shifted) density, rejected if above; only on the boundary may the squeezing test decide otherwise. -/
theorem C155_plain {F : ℝ → ℝ} {metro : Bool} {convex xl xr : ℝ} {npoint : ℕ} (hF : ConcaveOn ℝ (Icc xl xr) F) {e : Env} (h : Reach F metro convex xl xr npoint e) (k : ℕ) (onLeft : Bool) (p q : Pt) (hp : pieceL e k onLeft = some p) (hq : pieceR e k onLeft = some q)
    (x : ℝ) (h1 : p.1 ≤ x) (h2 : x ≤ q.1) (y0 ey u : ℝ) :
    (u * ey < Real.exp (F x - y0 + 50) → testPlain F y0 (chord e k) x ey u = true) ∧ (Real.exp (F x - y0 + 50) < u * ey → testPlain F y0 (chord e k) x ey u = false) := by
  have hs := C153_reach h
  have hsq : ∀ l r, chord e k = some (l, r) → squeeze l r x ≤ F x := by
    intro l r hc
    unfold chord at hc
    split_ifs at hc with hk
    simp only [Option.bind_eq_some_iff, Option.some.injEq, Prod.mk.injEq] at hc
    obtain ⟨l', hl, r', hr, rfl, rfl⟩ := hc
    have hL := pts_mem hs.points hl
    have hR := pts_mem hs.points hr
    obtain ⟨j, rfl⟩ : ∃ j, k = j + 1 := ⟨k - 1, by omega⟩
    rw [Nat.add_sub_cancel] at hl
    have hjl := (List.getElem?_eq_some_iff.mp hr).1
    obtain ⟨m, hm⟩ : ∃ m, e.ms[j + 1]? = some m := ⟨_, List.getElem?_eq_getElem (by rw [hs.rendered.1]; omega)⟩
    obtain ⟨m1, m2⟩ := C153_inside h j l' m r' hl hm hr
    refine squeeze_le hF l' r' hL.1 hR.1 hL.2 hR.2 (pts_lt hs.points (by omega) hl hr) x ?_ ?_
    · cases onLeft with
      | true =>
        have := (back_some (by simpa [pieceL] using hp)).2
        rw [Nat.add_sub_cancel, hl] at this
        rw [Option.some.inj this]; exact h1
      | false =>
        have : e.ms[j + 1]? = some p := by simpa [pieceL] using hp
        rw [hm] at this
        rw [← Option.some.inj this] at h1
        linarith
    · cases onLeft with
      | false =>
        have : e.ds[j + 1]? = some q := by simpa [pieceR] using hq
        rw [hr] at this
        rw [Option.some.inj this]; exact h2
      | true =>
        have : e.ms[j + 1]? = some q := by simpa [pieceR] using hq
        rw [hm] at this
        rw [← Option.some.inj this] at h2
        linarith
  constructor
  · intro hu
    have hlt := logLt_iff.mpr hu
    unfold testPlain
    split
    · split_ifs
      · rfl
      · simpa using hlt
    · simpa using hlt
  · intro hu
    have hn : ¬ logLt (u * ey) y0 (F x) := fun hlt => by have := logLt_iff.mp hlt; linarith
    unfold testPlain
    split
    · rename_i l r hc
      rw [if_neg]
      · simpa using hn
      · intro hle
        have h3 := logLe_iff.mp hle
        have : Real.exp (squeeze l r x - y0 + 50) ≤ Real.exp (F x - y0 + 50) := Real.exp_le_exp.mpr (by linarith [hsq l r hc])
        linarith
    · simpa using hn

/-- Within a piece the height is the line's. -/
theorem height_piece : ∀ (pre : List Pt) (p q : Pt) (post : List Pt), (pre ++ p :: q :: post).IsChain (fun a b => a.1 ≤ b.1) → ∀ x, p.1 < x → x ≤ q.1 → height (pre ++ p :: q :: post) x = lin p q x ∧ ∀ a, (pre ++ p :: q :: post).head? = some a → a.1 < x
  | [], p, q, post, _, x, h1, h2 => by
    refine ⟨?_, fun a ha => ?_⟩
    · rw [List.nil_append, height, if_neg (not_lt.mpr h2)]
    · have : p = a := by simpa using ha
      rw [← this]; exact h1
  | a :: pre, p, q, post, hc, x, h1, h2 => by
    obtain ⟨b, m, hbm⟩ : ∃ b m, pre ++ p :: q :: post = b :: m := by cases pre <;> exact ⟨_, _, rfl⟩
    rw [List.cons_append, hbm, List.isChain_cons_cons] at hc
    obtain ⟨i1, i2⟩ := height_piece pre p q post (by rw [hbm]; exact hc.2) x h1 h2
    have hb := i2 b (by rw [hbm]; rfl)
    refine ⟨?_, fun c hcc => ?_⟩
    · rw [List.cons_append, hbm, height, if_pos hb, ← hbm, i1]
    · have : a = c := by simpa using hcc
      rw [← this]; linarith [hc.1]

/-- Within a piece the envelope is the piece's. -/
theorem envelope_piece (y0 : ℝ) : ∀ (pre : List Pt) (p q : Pt) (post : List Pt), (pre ++ p :: q :: post).IsChain (fun a b => a.1 ≤ b.1) → ∀ x, p.1 < x → x ≤ q.1 → envelope y0 (pre ++ p :: q :: post) x = dens y0 p q x ∧ ∀ a, (pre ++ p :: q :: post).head? = some a → a.1 < x
  | [], p, q, post, _, x, h1, h2 => by
    refine ⟨?_, fun a ha => ?_⟩
    · rw [List.nil_append, envelope, if_neg (not_lt.mpr h2)]
    · have : p = a := by simpa using ha
      rw [← this]; exact h1
  | a :: pre, p, q, post, hc, x, h1, h2 => by
    obtain ⟨b, m, hbm⟩ : ∃ b m, pre ++ p :: q :: post = b :: m := by cases pre <;> exact ⟨_, _, rfl⟩
    rw [List.cons_append, hbm, List.isChain_cons_cons] at hc
    obtain ⟨i1, i2⟩ := envelope_piece y0 pre p q post (by rw [hbm]; exact hc.2) x h1 h2
    have hb := i2 b (by rw [hbm]; rfl)
    refine ⟨?_, fun c hcc => ?_⟩
    · rw [List.cons_append, hbm, envelope, if_pos hb, ← hbm, i1]
    · have : a = c := by simpa using hcc
      rw [← this]; linarith [hc.1]

/-- In the piece of a draw, the density is at most the envelope. -/
theorem below_dens {F : ℝ → ℝ} {metro : Bool} {convex xl xr : ℝ} {npoint : ℕ} (hF : ConcaveOn ℝ (Icc xl xr) F) {e : Env} (h : Reach F metro convex xl xr npoint e) (pre post : List Pt) (p q : Pt) (hsp : nodes e.ms e.ds = pre ++ p :: q :: post) (x : ℝ) (h1 : p.1 < x) (h2 : x ≤ q.1)
    (hx : x ∈ Icc xl xr) (y0 : ℝ) : F x ≤ lin p q x ∧ Real.exp (F x - y0 + 50) ≤ dens y0 p q x := by
  have hch := (sound_nodes (C153_reach h)).1
  have hA := C153_above hF h x hx
  rw [hsp] at hch hA
  rw [(height_piece pre p q post hch x h1 h2).1] at hA
  exact ⟨hA, (Real.exp_le_exp.mpr (by linarith)).trans (C154_over y0 p q (by linarith) x h1.le h2)⟩

/-- C155: with Metropolis steps (the default), for a log-concave density, a point that isn't rejected is always the one given out: the Metropolis step never stays. -/
theorem C155_moves {F : ℝ → ℝ} {metro : Bool} {convex xl xr : ℝ} {npoint : ℕ} (hF : ConcaveOn ℝ (Icc xl xr) F) {e : Env} (h : Reach F metro convex xl xr npoint e) (pre post : List Pt) (p q : Pt) (hsp : nodes e.ms e.ds = pre ++ p :: q :: post)
    (x : ℝ) (h1 : p.1 < x) (h2 : x ≤ q.1) (hxx : x ∈ Icc xl xr) (y0 : ℝ) (hn : Near y0 p ∧ Near y0 q) (xprev : ℝ) (hx : xprev ∈ Icc xl xr) (u u2 : ℝ) (hu2 : u2 ≤ 1) :
    testMetro F y0 (nodes e.ms e.ds) xprev (F xprev) x (yAt y0 p q x) (eyAt y0 p q x) u u2 = if u * eyAt y0 p q x < Real.exp (F x - y0 + 50) then some (x, F x) else none := by
  have hold := C153_above hF h xprev hx
  have hpq : p.1 < q.1 := by linarith
  have henv := (below_dens hF h pre post p q hsp x h1 h2 hxx y0).1
  have h1' := h1.le
  obtain ⟨c1, c2, c3⟩ := C154_height y0 p q hn.1 hn.2 hpq x h1' h2
  have hnew : F x ≤ yAt y0 p q x := by
    rw [c3]
    have := C154_over y0 p q hpq x h1' h2
    have h3 := Real.log_le_log (Real.exp_pos _) this
    rw [Real.log_exp] at h3
    linarith
  unfold testMetro
  have hr : ratio (F xprev) (height (nodes e.ms e.ds) xprev) (F x) (yAt y0 p q x) = 0 := by
    unfold ratio
    have e1 : (if F x < yAt y0 p q x then F x else yAt y0 p q x) = F x := by split_ifs with h; rfl; linarith [not_lt.mp h]
    have e2 : (if F xprev < height (nodes e.ms e.ds) xprev then F xprev else height (nodes e.ms e.ds) xprev) = F xprev := by split_ifs with h; rfl; linarith [not_lt.mp h]
    rw [e1, e2]
    simp
  have hc : cut 0 = 1 := by unfold cut YCEIL; norm_num
  rw [hr, hc, if_neg (not_lt.mpr hu2)]
  simp only [logLt_iff]

/-- C155: the Metropolis step keeps the target: it is in detailed balance with exp F when the trial points have density proportional to the smaller of the density and the envelope, unless the acceptance probability is below e⁻⁵⁰. -/
theorem C155_balance (F H : ℝ → ℝ) (x y : ℝ) (hc : -50 < ratio (F x) (H x) (F y) (H y) ∧ -50 < ratio (F y) (H y) (F x) (H x)) :
    Real.exp (F x) * min (Real.exp (F y)) (Real.exp (H y)) * cut (ratio (F x) (H x) (F y) (H y)) = Real.exp (F y) * min (Real.exp (F x)) (Real.exp (H x)) * cut (ratio (F y) (H y) (F x) (H x)) := by
  have hm : ∀ z, min (Real.exp (F z)) (Real.exp (H z)) = Real.exp (if F z < H z then F z else H z) := fun z => by
    split_ifs with h
    · exact min_eq_left (Real.exp_le_exp.mpr h.le)
    · exact min_eq_right (Real.exp_le_exp.mpr (not_lt.mp h))
  rw [hm, hm]
  unfold cut YCEIL
  rw [if_pos hc.1, if_pos hc.2]
  unfold ratio
  generalize (if F x < H x then F x else H x) = a
  generalize (if F y < H y then F y else H y) = b
  rw [← Real.exp_add, ← Real.exp_add, ← Real.exp_add, ← Real.exp_add]
  congr 1
  rcases le_total (F y - b - F x + a) 0 with h | h
  · rw [min_eq_left h, min_eq_right (by linarith)]; linarith
  · rw [min_eq_right h, min_eq_left (by linarith)]; linarith

end Apop.Arms
