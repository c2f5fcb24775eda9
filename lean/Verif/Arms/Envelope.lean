import Verif.Arms.Meet
import Mathlib.Algebra.Order.Ring.Star
import Mathlib.Data.List.InsertIdx

/-! # C152-C153: setting up and updating the envelope (apop_arms.c)

The linked list of points alternates between points on the log density (`f` = 1) and others — the intersections and the two bounds: m₀ d₀ m₁ d₁ … dₙ₋₁ mₙ. The model keeps the two kinds in two lists. -/

namespace Apop.Arms

open Set

/-- The envelope: the points on the log density and the others. -/
structure Env where
  ds : List Pt
  ms : List Pt

/-- The linked list from left to right. -/
def nodes : List Pt → List Pt → List Pt
  | m :: ms, d :: ds => m :: d :: nodes ms ds
  | ms, _ => ms

/-- `ds[k - j]`, if there is one. -/
def back (ds : List Pt) (k j : ℕ) : Option Pt := if j ≤ k then ds[k - j]? else none

/-- `meet` for the k-th of the other points: its neighbours `q->pl`, `q->pr` are ds[k−1], ds[k], and `q->pl->pl->pl`, `q->pr->pr->pr` are ds[k−2], ds[k+1], apop_arms.c:429-447. `x0` is the x it has (kept for a bound). -/
noncomputable def meetAt (metro : Bool) (convex : ℝ) (ds : List Pt) (x0 : ℝ) (k : ℕ) : Option Pt := meet metro convex x0 (back ds k 2) (back ds k 1) ds[k]? ds[k + 1]?

/-- All or nothing. -/
def allSome {α : Type*} : List (Option α) → Option (List α)
  | [] => some []
  | a :: l => a.bind fun x => (allSome l).bind fun r => some (x :: r)

/-- `initial`, apop_arms.c:120-177: the checks, the points, and the intersections. `F` is the log density. -/
noncomputable def initial (F : ℝ → ℝ) (metro : Bool) (convex xl xr : ℝ) (npoint : ℕ) (xinit : List ℝ) : Option Env :=
  if 3 ≤ xinit.length ∧ 2 * xinit.length + 1 ≤ npoint ∧ (∀ x ∈ xinit.head?, xl ≤ x) ∧ (∀ x ∈ xinit.getLast?, x ≤ xr) ∧ xinit.IsChain (· < ·) ∧ 0 ≤ convex then
    (allSome ((List.range (xinit.length + 1)).map fun k => meetAt metro convex (xinit.map fun x => (x, F x)) (if k = 0 then xl else xr) k)).bind fun ms =>
      some ⟨xinit.map fun x => (x, F x), ms⟩
  else none

/-- `XEPS`, apop_arms.c:9. -/
noncomputable def XEPS : ℝ := 1 / 100000

/-- Moving a point that is too close to an end, apop_arms.c:368-376. -/
noncomputable def moved (ql qr x : ℝ) : ℝ :=
  if x < (1 - XEPS) * ql + XEPS * qr then (1 - XEPS) * ql + XEPS * qr
  else if x > XEPS * ql + (1 - XEPS) * qr then XEPS * ql + (1 - XEPS) * qr else x

/-- `meet(ms[j])` in place. -/
noncomputable def redo (metro : Bool) (convex : ℝ) (ds : List Pt) (j : ℕ) (ms : List Pt) : Option (List Pt) :=
  (ms[j]?).bind fun m => (meetAt metro convex ds m.1 j).bind fun m' => some (ms.set j m')

/-- x of the left neighbour on the density or the bound, apop_arms.c:366. -/
def leftX (e : Env) (k : ℕ) : ℝ := match back e.ds k 1 with | some d => d.1 | none => (e.ms.getD 0 (0, 0)).1

/-- x of the right neighbour, apop_arms.c:367. -/
def rightX (e : Env) (k : ℕ) : ℝ := match e.ds[k]? with | some d => d.1 | none => (e.ms.getD k (0, 0)).1

/-- The two nodes put in, apop_arms.c:339-364: the new point is between ds[k−1] and ds[k]; `onLeft` says that the piece's left end is on the log density, so that the new intersection is left of the new point, before `ms[k]`. `junk` is what the unused node holds. -/
def inserted (e : Env) (k : ℕ) (onLeft : Bool) (junk q : Pt) : Env := ⟨e.ds.insertIdx k q, e.ms.insertIdx (if onLeft then k else k + 1) junk⟩

/-- The four calls of `meet`, apop_arms.c:379-383. -/
noncomputable def refresh (metro : Bool) (convex : ℝ) (k : ℕ) (e : Env) : Option Env :=
  (redo metro convex e.ds k e.ms).bind fun m1 => (redo metro convex e.ds (k + 1) m1).bind fun m2 =>
    (if 1 ≤ k then redo metro convex e.ds (k - 1) m2 else some m2).bind fun m3 =>
      (if k + 1 < e.ds.length then redo metro convex e.ds (k + 2) m3 else some m3).bind fun m4 => some ⟨e.ds, m4⟩

/-- `update`, apop_arms.c:326-389, for a point `x` of the piece right (`onLeft`) of ds[k−1] or left of ds[k]. `none`: it fails. -/
noncomputable def update (F : ℝ → ℝ) (metro : Bool) (convex : ℝ) (npoint : ℕ) (junk : Pt) (e : Env) (k : ℕ) (onLeft : Bool) (x : ℝ) : Option Env :=
  if 2 * e.ds.length + 1 > npoint - 2 then some e
  else refresh metro convex k (inserted e k onLeft junk (moved (leftX e k) (rightX e k) x, F (moved (leftX e k) (rightX e k) x)))

/-! ### Height over the whole -/

variable {f : ℝ → ℝ} {s : Set ℝ}

theorem height_from : ∀ (ds ms : List Pt) (d : Pt), ms.length = ds.length + 1 →
    (∀ (k : ℕ) (a m b : Pt), (d :: ds)[k]? = some a → ms[k]? = some m → ds[k]? = some b → Over f a m b) →
    (∀ a m, (d :: ds)[ds.length]? = some a → ms[ds.length]? = some m → ∀ x, a.1 ≤ x → x ≤ m.1 → f x ≤ lin a m x) →
    ∀ x, d.1 ≤ x → (∀ m, ms[ds.length]? = some m → x ≤ m.1) → f x ≤ height (d :: nodes ms ds) x
  | [], ms, d, hlen, _, hlast, x, hx, hm => by
    obtain ⟨m, rfl⟩ : ∃ m, ms = [m] := List.length_eq_one_iff.mp (by simpa using hlen)
    have hxm := hm m (by simp)
    rw [nodes, height, if_neg (not_lt.mpr hxm)]
    · exact hlast d m (by simp) (by simp) x hx hxm
    · simp
  | d' :: ds, ms, d, hlen, hov, hlast, x, hx, hm => by
    obtain ⟨m, ms, rfl⟩ : ∃ m ms', ms = m :: ms' := by cases ms with
      | nil => simp at hlen
      | cons m ms' => exact ⟨m, ms', rfl⟩
    obtain ⟨h1, h2, h3⟩ := hov 0 d m d' (by simp) (by simp) (by simp)
    rw [nodes, height]
    by_cases hd : d'.1 < x
    · have hmx : m.1 < x := lt_of_le_of_lt h2 hd
      rw [if_pos hmx, height, if_pos hd]
      exact height_from ds ms d' (by simpa using hlen) (fun k a m b ha hm' hb => hov (k + 1) a m b (by simpa using ha) (by simpa using hm') (by simpa using hb))
        (fun a m ha hm' => hlast a m (by simpa using ha) (by simpa using hm')) x hd.le (fun m hm' => hm m (by simpa using hm'))
    · have := h3 x hx (not_lt.mp hd)
      split_ifs with hmx
      · rw [height, if_neg hd]
        rwa [if_pos hmx] at this
      · rwa [if_neg hmx] at this

theorem height_all (d m : Pt) (ds ms : List Pt) (hlen : ms.length = ds.length + 1)
    (hfirst : ∀ x, m.1 ≤ x → x ≤ d.1 → f x ≤ lin m d x)
    (hov : ∀ (k : ℕ) (a m b : Pt), (d :: ds)[k]? = some a → ms[k]? = some m → ds[k]? = some b → Over f a m b)
    (hlast : ∀ a m, (d :: ds)[ds.length]? = some a → ms[ds.length]? = some m → ∀ x, a.1 ≤ x → x ≤ m.1 → f x ≤ lin a m x)
    (x : ℝ) (hx : m.1 ≤ x) (hm : ∀ m, ms[ds.length]? = some m → x ≤ m.1) : f x ≤ height (nodes (m :: ms) (d :: ds)) x := by
  rw [nodes, height]
  split_ifs with h
  · exact height_from ds ms d hlen hov hlast x h.le hm
  · exact hfirst x hx (not_lt.mp h)

/-- The other points are what `meet` makes of the points on the log density, the bounds being at xl and xr. -/
def Rendered (metro : Bool) (convex xl xr : ℝ) (e : Env) : Prop :=
  e.ms.length = e.ds.length + 1 ∧ ∀ k ≤ e.ds.length, ∃ m, e.ms[k]? = some m ∧ meetAt metro convex e.ds (if k = 0 then xl else xr) k = some m

/-- The points on the log density: on it, from left to right, within the bounds. -/
def Points (F : ℝ → ℝ) (xl xr : ℝ) (ds : List Pt) : Prop := (∀ d ∈ ds, On F d ∧ xl ≤ d.1 ∧ d.1 ≤ xr) ∧ ds.Pairwise fun a b => a.1 < b.1

theorem pts_lt {F : ℝ → ℝ} {xl xr : ℝ} {ds : List Pt} (h : Points F xl xr ds) {i j : ℕ} {a b : Pt} (hij : i < j) (ha : ds[i]? = some a) (hb : ds[j]? = some b) : a.1 < b.1 := by
  obtain ⟨hi, rfl⟩ := List.getElem?_eq_some_iff.mp ha
  obtain ⟨hj, rfl⟩ := List.getElem?_eq_some_iff.mp hb
  exact List.pairwise_iff_getElem.mp h.2 i j hi hj hij

theorem meetAt_zero (metro : Bool) (convex x0 : ℝ) (a b : Pt) (l : List Pt) : meetAt metro convex (a :: b :: l) x0 0 = some (x0, a.2 - grad a b * (a.1 - x0)) := by
  simp [meetAt, back, meet]

theorem meetAt_last (metro : Bool) (convex x0 : ℝ) (ds : List Pt) (n : ℕ) (hn : ds.length = n + 2) (a b : Pt) (ha : ds[n]? = some a) (hb : ds[n + 1]? = some b) :
    meetAt metro convex ds x0 (n + 2) = some (x0, b.2 + grad b a * (x0 - b.1)) := by
  have h1 : ds[n + 2]? = none := by rw [List.getElem?_eq_none]; omega
  simp [meetAt, back, meet, ha, hb, h1]

theorem back_some {ds : List Pt} {k j : ℕ} {a : Pt} (h : back ds k j = some a) : j ≤ k ∧ ds[k - j]? = some a := by
  unfold back at h
  split_ifs at h with hj
  exact ⟨hj, h⟩

theorem pts_mem {F : ℝ → ℝ} {xl xr : ℝ} {ds : List Pt} (h : Points F xl xr ds) {i : ℕ} {a : Pt} (ha : ds[i]? = some a) : On F a ∧ xl ≤ a.1 ∧ a.1 ≤ xr :=
  h.1 a (List.mem_of_getElem? ha)

/-- `meet` succeeds between any two neighbours for a concave log density. -/
theorem meetAt_over {F : ℝ → ℝ} {xl xr : ℝ} (hF : ConcaveOn ℝ (Icc xl xr) F) (metro : Bool) (convex x0 : ℝ) (ds : List Pt) (hp : Points F xl xr ds) (hn : 3 ≤ ds.length) (k : ℕ) (a b : Pt)
    (ha : ds[k]? = some a) (hb : ds[k + 1]? = some b) : ∃ q, meetAt metro convex ds x0 (k + 1) = some q ∧ Over F a q b := by
  have hA := pts_mem hp ha
  have hB := pts_mem hp hb
  have e1 : back ds (k + 1) 1 = some a := by simp [back, ha]
  rw [meetAt, e1, hb]
  refine meet_over hF ordConnected_Icc metro convex x0 _ _ a b hA.1 hB.1 hA.2 hB.2 (pts_lt hp (by omega) ha hb) ?_ ?_ ?_
  · intro c hc
    obtain ⟨h1, h2⟩ := back_some hc
    have hC := pts_mem hp h2
    exact ⟨hC.1, hC.2, pts_lt hp (by omega) h2 ha⟩
  · intro c hc
    have hC := pts_mem hp hc
    exact ⟨hC.1, hC.2, pts_lt hp (by omega) hb hc⟩
  · by_cases h : 1 ≤ k
    · left
      have : k + 1 - 2 < ds.length := by have := (List.getElem?_eq_some_iff.mp ha).1; omega
      rw [back, if_pos (by omega), List.getElem?_eq_getElem this]; simp
    · right
      have : k + 1 + 1 < ds.length := by omega
      rw [List.getElem?_eq_getElem this]; simp

/-- C152: for a log-concave density the envelope is nowhere below the log density, between the bounds. -/
theorem C152_above {F : ℝ → ℝ} {xl xr : ℝ} (hF : ConcaveOn ℝ (Icc xl xr) F) (metro : Bool) (convex : ℝ) (e : Env) (hp : Points F xl xr e.ds) (hr : Rendered metro convex xl xr e) (hn : 3 ≤ e.ds.length)
    (x : ℝ) (hx : x ∈ Icc xl xr) : F x ≤ height (nodes e.ms e.ds) x := by
  obtain ⟨ds, ms⟩ := e
  simp only at hp hr hn
  obtain ⟨hlen, hr⟩ := hr
  simp only at hlen hr
  obtain ⟨d, d1, ds, rfl⟩ : ∃ d d1 ds', ds = d :: d1 :: ds' := by
    match ds, hn with
    | d :: d1 :: ds', _ => exact ⟨d, d1, ds', rfl⟩
  obtain ⟨m, ms, rfl⟩ : ∃ m ms', ms = m :: ms' := by cases ms with
    | nil => simp at hlen
    | cons m ms' => exact ⟨m, ms', rfl⟩
  have hd := pts_mem hp (i := 0) (a := d) (by simp)
  have hd1 := pts_mem hp (i := 1) (a := d1) (by simp)
  have hlt := pts_lt hp (i := 0) (j := 1) (a := d) (b := d1) (by omega) (by simp) (by simp)
  obtain ⟨m', hm', hm0⟩ := hr 0 (by omega)
  have : m' = m := by simpa using hm'.symm
  subst this
  rw [if_pos rfl, meetAt_zero] at hm0
  have hm0 := Option.some.inj hm0
  -- the last one
  obtain ⟨mN, hmN, hmL⟩ := hr (ds.length + 2) (by simp)
  have hda : ∃ a, (d :: d1 :: ds)[ds.length]? = some a := ⟨_, List.getElem?_eq_getElem (by simp; omega)⟩
  have hdb : ∃ b, (d :: d1 :: ds)[ds.length + 1]? = some b := ⟨_, List.getElem?_eq_getElem (by simp)⟩
  obtain ⟨a, ha⟩ := hda
  obtain ⟨b, hb⟩ := hdb
  have hA := pts_mem hp ha
  have hB := pts_mem hp hb
  have hab := pts_lt hp (by omega) ha hb
  rw [if_neg (by omega), meetAt_last metro convex xr _ ds.length (by simp) a b ha hb] at hmL
  have hmL := Option.some.inj hmL
  refine height_all d m' (d1 :: ds) ms (by simpa using hlen) ?_ ?_ ?_ x (by rw [← hm0]; exact hx.1) ?_
  · rw [← hm0]
    intro y hy1 hy2
    simp only at hy1
    have := below_left hF (x := y) (r := d.1) (b := d1.1) ⟨hy1, by linarith [hd.2.2]⟩ hd1.2 hy2 hlt
    rw [← hd.1, ← hd1.1] at this
    refine this.trans (le_of_eq ?_)
    simp only [lin, grad]
    rcases hd.2.1.eq_or_lt with h | h
    · have : y = d.1 := by linarith
      rw [this, ← h]; simp
    · have hne : d.1 - xl ≠ 0 := by linarith
      field_simp
      ring
  · intro k a' m b' ha' hm' hb'
    obtain ⟨q, hq, hov⟩ := meetAt_over hF metro convex (if k + 1 = 0 then xl else xr) _ hp hn k a' b' ha' (by simpa using hb')
    obtain ⟨m2, hm2, hm3⟩ := hr (k + 1) (by have := (List.getElem?_eq_some_iff.mp hb').1; simp at this ⊢; omega)
    rw [hq] at hm3
    have e1 : q = m2 := Option.some.inj hm3
    have e2 : m = m2 := by
      have h : (m' :: ms)[k + 1]? = some m := by simpa using hm'
      rw [hm2] at h; exact (Option.some.inj h).symm
    rw [e2, ← e1]
    exact hov
  · intro a' m ha' hm'
    have e1 : a' = b := by
      have h : (d :: d1 :: ds)[ds.length + 1]? = some a' := ha'
      rw [hb] at h; exact (Option.some.inj h).symm
    have e2 : m = mN := by
      have h : (m' :: ms)[ds.length + 2]? = some m := hm'
      rw [hmN] at h; exact (Option.some.inj h).symm
    rw [e1, e2, ← hmL]
    intro y hy1 hy2
    simp only at hy2
    have := below_right hF (a := a.1) (l := b.1) (x := y) hA.2 ⟨by linarith [hB.2.1], hy2⟩ hab hy1
    rw [← hA.1, ← hB.1] at this
    refine this.trans (le_of_eq ?_)
    simp only [lin, grad]
    rcases hB.2.2.eq_or_lt with h | h
    · have : y = b.1 := by linarith
      rw [this]; simp
    · have hne : xr - b.1 ≠ 0 := by linarith
      field_simp
      ring
  · intro m hm
    have e2 : m = mN := by
      have h : (m' :: ms)[ds.length + 2]? = some m := hm
      rw [hmN] at h; exact (Option.some.inj h).symm
    rw [e2, ← hmL]
    exact hx.2

end Apop.Arms
