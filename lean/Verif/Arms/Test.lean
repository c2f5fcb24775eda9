import Verif.Arms.Reach
import Verif.Arms.Draw

/-! # C155: accepting or rejecting a draw (apop_arms.c) -/

namespace Apop.Arms

open Set

/-! ### The nodes from left to right -/

theorem nodes_get : ∀ (ds ms : List Pt) (k : ℕ), ms.length = ds.length + 1 → (nodes ms ds)[2 * k]? = ms[k]? ∧ (nodes ms ds)[2 * k + 1]? = ds[k]?
  | [], ms, k, h => by
    obtain ⟨m, rfl⟩ : ∃ m, ms = [m] := List.length_eq_one_iff.mp (by simpa using h)
    cases k with
    | zero => simp [nodes]
    | succ k => simp [nodes, Nat.mul_succ]
  | d :: ds, ms, k, h => by
    obtain ⟨m, ms, rfl⟩ : ∃ m ms', ms = m :: ms' := by cases ms with
      | nil => simp at h
      | cons m ms' => exact ⟨m, ms', rfl⟩
    rw [nodes]
    cases k with
    | zero => simp
    | succ k =>
      have ih := nodes_get ds ms k (by simpa using h)
      have e : 2 * (k + 1) = 2 * k + 1 + 1 := by ring
      rw [e]
      simpa using ih

theorem nodes_chain : ∀ (ds ms : List Pt), ms.length = ds.length + 1 → (∀ (k : ℕ) (m d : Pt), ms[k]? = some m → ds[k]? = some d → m.1 ≤ d.1) → (∀ (k : ℕ) (d m : Pt), ds[k]? = some d → ms[k + 1]? = some m → d.1 ≤ m.1) → (nodes ms ds).IsChain (fun a b => a.1 ≤ b.1)
  | [], ms, h, _, _ => by
    obtain ⟨m, rfl⟩ : ∃ m, ms = [m] := List.length_eq_one_iff.mp (by simpa using h)
    simp [nodes]
  | d :: ds, ms, h, h1, h2 => by
    obtain ⟨m, ms, rfl⟩ : ∃ m ms', ms = m :: ms' := by cases ms with
      | nil => simp at h
      | cons m ms' => exact ⟨m, ms', rfl⟩
    have ih := nodes_chain ds ms (by simpa using h) (fun k m d hm hd => h1 (k + 1) m d (by simpa using hm) (by simpa using hd)) (fun k d m hd hm => h2 (k + 1) d m (by simpa using hd) (by simpa using hm))
    rw [nodes, List.isChain_cons_cons]
    refine ⟨h1 0 m d (by simp) (by simp), ?_⟩
    cases hn : nodes ms ds with
    | nil => simp
    | cons c l =>
      rw [List.isChain_cons_cons]
      rw [hn] at ih
      refine ⟨h2 0 d c (by simp) ?_, ih⟩
      have := (nodes_get ds ms 0 (by simpa using h)).1
      rw [hn] at this
      simpa using this.symm

theorem inside_of_rendered {F : ℝ → ℝ} {metro : Bool} {convex xl xr : ℝ} {npoint : ℕ} {e : Env} (hs : Sound F metro convex xl xr npoint e) (k : ℕ) (a m b : Pt) (ha : e.ds[k]? = some a) (hm : e.ms[k + 1]? = some m) (hb : e.ds[k + 1]? = some b) :
    a.1 ≤ m.1 ∧ m.1 ≤ b.1 := by
  have hab := pts_lt hs.points (by omega) ha hb
  obtain ⟨m', h1, h2⟩ := hs.rendered.2 (k + 1) (by have := (List.getElem?_eq_some_iff.mp hb).1; omega)
  rw [hm] at h1
  rw [← Option.some.inj h1] at h2
  have e1 : back e.ds (k + 1) 1 = some a := by simp [back, ha]
  rw [meetAt, e1, hb, meet] at h2
  have HL : ∀ (o : Option Pt) (d : ℝ), leftD metro convex o a b = some (some d) → 0 < d := by
    intro o d hd
    unfold leftD at hd
    cases o with
    | none => simp at hd
    | some c =>
      simp only at hd
      split_ifs at hd <;> (simp only [Option.some.injEq] at hd; rw [← hd]; exact (clip_ge _).2)
  have HR : ∀ (o : Option Pt) (d : ℝ), rightD metro convex a b o = some (some d) → 0 < d := by
    intro o d hd
    unfold rightD at hd
    cases o with
    | none => simp at hd
    | some c =>
      simp only at hd
      split_ifs at hd <;> (simp only [Option.some.injEq] at hd; rw [← hd]; exact (clip_ge _).2)
  cases hL : leftD metro convex (back e.ds (k + 1) 2) a b with
  | none => rw [hL] at h2; simp at h2
  | some dr =>
    cases hR : rightD metro convex a b e.ds[k + 1 + 1]? with
    | none => rw [hL, hR] at h2; simp at h2
    | some dl =>
      rw [hL, hR] at h2
      simp only [Option.bind_some] at h2
      cases dr with
      | none =>
        cases dl with
        | none => simp [cross] at h2
        | some dl => simp only [cross, Option.some.injEq] at h2; rw [← h2]; exact ⟨le_refl _, hab.le⟩
      | some dr =>
        cases dl with
        | none => simp only [cross, Option.some.injEq] at h2; rw [← h2]; exact ⟨hab.le, le_refl _⟩
        | some dl =>
          have p1 := HL _ _ hL
          have p2 := HR _ _ hR
          simp only [cross, Option.some.injEq] at h2
          rw [← h2]
          simp only
          constructor
          · rw [le_div_iff₀ (by linarith)]; nlinarith
          · rw [div_le_iff₀ (by linarith)]; nlinarith

/-- C153: an intersection always lies between its neighbours, whatever the log density: "error 32: intersection point outside interval" never comes up. -/
theorem C153_inside {F : ℝ → ℝ} {metro : Bool} {convex xl xr : ℝ} {npoint : ℕ} {e : Env} (h : Reach F metro convex xl xr npoint e) (k : ℕ) (a m b : Pt) (ha : e.ds[k]? = some a) (hm : e.ms[k + 1]? = some m) (hb : e.ds[k + 1]? = some b) :
    a.1 ≤ m.1 ∧ m.1 ≤ b.1 := inside_of_rendered (C153_reach h) k a m b ha hm hb

/-- The nodes of a sound envelope go from left to right, from xl to xr. -/
theorem sound_nodes {F : ℝ → ℝ} {metro : Bool} {convex xl xr : ℝ} {npoint : ℕ} {e : Env} (hs : Sound F metro convex xl xr npoint e) :
    (nodes e.ms e.ds).IsChain (fun a b => a.1 ≤ b.1) ∧ (∃ a, (nodes e.ms e.ds).head? = some a ∧ a.1 = xl) ∧ (∃ z, (nodes e.ms e.ds).getLast? = some z ∧ z.1 = xr) ∧ xl < xr := by
  have h3 := hs.three
  have hl := hs.rendered.1
  obtain ⟨m0, hm0, hx0⟩ := bound_left hs.rendered
  obtain ⟨mn, hmn, hxn⟩ := bound_right hs.rendered (by omega)
  have hlen : (nodes e.ms e.ds).length = 2 * e.ds.length + 1 := by
    have A := (nodes_get e.ds e.ms e.ds.length hl).1
    have B := (nodes_get e.ds e.ms e.ds.length hl).2
    rw [hmn] at A
    rw [List.getElem?_eq_none (le_refl e.ds.length)] at B
    have := (List.getElem?_eq_some_iff.mp A).1
    have := List.getElem?_eq_none_iff.mp B
    omega
  refine ⟨nodes_chain e.ds e.ms hl ?_ ?_, ⟨m0, ?_, hx0⟩, ⟨mn, ?_, hxn⟩, ?_⟩
  · intro k m d hm hd
    cases k with
    | zero =>
      rw [hm0] at hm
      rw [← Option.some.inj hm, hx0]
      exact (pts_mem hs.points hd).2.1
    | succ k =>
      have hk := (List.getElem?_eq_some_iff.mp hd).1
      exact (inside_of_rendered hs k e.ds[k] m d (List.getElem?_eq_getElem (by omega)) hm hd).2
  · intro k d m hd hm
    have hk := (List.getElem?_eq_some_iff.mp hd).1
    rcases Nat.lt_or_ge (k + 1) e.ds.length with h | h
    · exact (inside_of_rendered hs k d m e.ds[k + 1] hd hm (List.getElem?_eq_getElem h)).1
    · have : k + 1 = e.ds.length := by omega
      rw [this, hmn] at hm
      rw [← Option.some.inj hm, hxn]
      exact (pts_mem hs.points hd).2.2
  · rw [List.head?_eq_getElem?]
    have := (nodes_get e.ds e.ms 0 hl).1
    rw [Nat.mul_zero] at this
    rw [this, hm0]
  · rw [List.getLast?_eq_getElem?, hlen]
    have := (nodes_get e.ds e.ms e.ds.length hl).1
    rw [Nat.add_sub_cancel, this, hmn]
  · have a := pts_mem hs.points (i := 0) (a := e.ds[0]) (List.getElem?_eq_getElem (by omega))
    have b := pts_mem hs.points (i := 1) (a := e.ds[1]) (List.getElem?_eq_getElem (by omega))
    have c := pts_lt hs.points (i := 0) (j := 1) (by omega) (List.getElem?_eq_getElem (by omega)) (List.getElem?_eq_getElem (by omega))
    linarith [a.2.1, b.2.2]

/-- Neighbouring nodes are a piece. -/
theorem piece_of_split {metro : Bool} {convex xl xr : ℝ} {e : Env} (hr : Rendered metro convex xl xr e) (pre post : List Pt) (p q : Pt) (h : nodes e.ms e.ds = pre ++ p :: q :: post) :
    ∃ k onLeft, pieceL e k onLeft = some p ∧ pieceR e k onLeft = some q ∧ k = (pre.length + 1) / 2 := by
  have hp : (nodes e.ms e.ds)[pre.length]? = some p := by rw [h]; simp
  have hq : (nodes e.ms e.ds)[pre.length + 1]? = some q := by rw [h]; simp
  rcases Nat.even_or_odd' pre.length with ⟨k, hk | hk⟩
  · refine ⟨k, false, ?_, ?_, by omega⟩
    · rw [hk, (nodes_get e.ds e.ms k hr.1).1] at hp
      simpa [pieceL] using hp
    · rw [hk, (nodes_get e.ds e.ms k hr.1).2] at hq
      simpa [pieceR] using hq
  · refine ⟨k + 1, true, ?_, ?_, by omega⟩
    · rw [hk, (nodes_get e.ds e.ms k hr.1).2] at hp
      simpa [pieceL, back] using hp
    · rw [hk, show 2 * k + 1 + 1 = 2 * (k + 1) by ring, (nodes_get e.ds e.ms (k + 1) hr.1).1] at hq
      simpa [pieceR] using hq

/-- C154: for every envelope that comes up, with no node more than 100 below the highest, and every uniform number in [0, 1), `invert` gives a point of a piece that an update can split, with the envelope's integral up to it as in C154_invert. -/
theorem C154_draw {F : ℝ → ℝ} {metro : Bool} {convex xl xr : ℝ} {npoint : ℕ} {e : Env} (h : Reach F metro convex xl xr npoint e) (hn : ∀ d ∈ nodes e.ms e.ds, Near (ymaxOf (nodes e.ms e.ds)) d) (prob : ℝ) (h0 : 0 ≤ prob) (h1 : prob < 1) :
    ∃ (k : ℕ) (onLeft : Bool) (p q : Pt) (x : ℝ), invert (ymaxOf (nodes e.ms e.ds)) prob (nodes e.ms e.ds) = some (p, q, x) ∧ Piece e k onLeft ∧ pieceL e k onLeft = some p ∧ pieceR e k onLeft = some q ∧ p.1 ≤ x ∧ x ≤ q.1 ∧
      |(∫ t in xl..x, envelope (ymaxOf (nodes e.ms e.ds)) (nodes e.ms e.ds) t) - prob * ∫ t in xl..xr, envelope (ymaxOf (nodes e.ms e.ds)) (nodes e.ms e.ds) t| ≤ (∫ t in p.1..q.1, dens (ymaxOf (nodes e.ms e.ds)) p q t) / 4000 ∧
      (¬ Flat (ymaxOf (nodes e.ms e.ds)) p q → ∫ t in xl..x, envelope (ymaxOf (nodes e.ms e.ds)) (nodes e.ms e.ds) t = prob * ∫ t in xl..xr, envelope (ymaxOf (nodes e.ms e.ds)) (nodes e.ms e.ds) t) := by
  have hs := C153_reach h
  obtain ⟨c1, ⟨a, c2, c3⟩, ⟨z, c4, c5⟩, c6⟩ := sound_nodes hs
  obtain ⟨pre, post, p, q, x, i1, i2, i3, i4, i5, i6, i7⟩ := C154_invert _ _ a z c2 c4 (by rw [c3, c5]; exact c6) c1 hn prob h0 h1
  obtain ⟨k, onLeft, j1, j2, -⟩ := piece_of_split hs.rendered pre post p q i2
  rw [c3, c5] at i6 i7
  exact ⟨k, onLeft, p, q, x, i1, ⟨p, q, j1, j2, i3⟩, j1, j2, i4, i5, i6, i7⟩

end Apop.Arms
