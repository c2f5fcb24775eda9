import Verif.Arms.Update

/-! # C153: every envelope that can come up

An envelope comes from setting up and any number of updates, each at a point of a piece of positive length (the pieces `invert` can choose, C154). -/

namespace Apop.Arms

open Set

/-- The left end of the piece: right of ds[k−1] (`onLeft`), or left of ds[k]. -/
def pieceL (e : Env) (k : ℕ) (onLeft : Bool) : Option Pt := if onLeft then back e.ds k 1 else e.ms[k]?

/-- The right end of the piece. -/
def pieceR (e : Env) (k : ℕ) (onLeft : Bool) : Option Pt := if onLeft then e.ms[k]? else e.ds[k]?

/-- A piece of the envelope, of positive length. -/
def Piece (e : Env) (k : ℕ) (onLeft : Bool) : Prop := ∃ a b, pieceL e k onLeft = some a ∧ pieceR e k onLeft = some b ∧ a.1 < b.1

/-- The envelopes that can come up for a log density `F`. -/
inductive Reach (F : ℝ → ℝ) (metro : Bool) (convex xl xr : ℝ) (npoint : ℕ) : Env → Prop
  | init (xinit : List ℝ) (e : Env) : initial F metro convex xl xr npoint xinit = some e → Reach F metro convex xl xr npoint e
  | step (e : Env) (junk : Pt) (k : ℕ) (onLeft : Bool) (x : ℝ) (r : Env) : Reach F metro convex xl xr npoint e → Piece e k onLeft → update F metro convex npoint junk e k onLeft x = some r → Reach F metro convex xl xr npoint r

theorem moved_between (ql qr x : ℝ) (h : ql < qr) : ql < moved ql qr x ∧ moved ql qr x < qr := by
  unfold moved XEPS
  split_ifs with h1 h2
  · constructor <;> linarith
  · constructor <;> linarith
  · constructor <;> linarith

theorem place_of_piece {metro : Bool} {convex xl xr : ℝ} {e : Env} (hr : Rendered metro convex xl xr e) {k : ℕ} {onLeft : Bool} (h : Piece e k onLeft) : Place e k onLeft := by
  obtain ⟨a, b, h1, h2, -⟩ := h
  unfold pieceL at h1
  unfold pieceR at h2
  unfold Place
  split_ifs at h1 h2 ⊢
  · have := (List.getElem?_eq_some_iff.mp h2).1
    rw [hr.1] at this
    exact ⟨(back_some h1).1, by omega⟩
  · exact (List.getElem?_eq_some_iff.mp h2).1

theorem bound_left {metro : Bool} {convex xl xr : ℝ} {e : Env} (hr : Rendered metro convex xl xr e) : ∃ m, e.ms[0]? = some m ∧ m.1 = xl := by
  obtain ⟨m', h1, h2⟩ := hr.2 0 (by omega)
  exact ⟨m', h1, meetAt_fst metro convex xl e.ds 0 m' (Or.inl rfl) (by simpa using h2)⟩

theorem bound_right {metro : Bool} {convex xl xr : ℝ} {e : Env} (hr : Rendered metro convex xl xr e) (hn : 1 ≤ e.ds.length) : ∃ m, e.ms[e.ds.length]? = some m ∧ m.1 = xr := by
  obtain ⟨m', h1, h2⟩ := hr.2 e.ds.length (le_refl _)
  rw [if_neg (by omega)] at h2
  exact ⟨m', h1, meetAt_fst metro convex xr e.ds _ m' (Or.inr (le_refl _)) h2⟩

/-- Where the interval for the new point lies. -/
theorem interval {F : ℝ → ℝ} {metro : Bool} {convex xl xr : ℝ} {e : Env} (hr : Rendered metro convex xl xr e) (hp : Points F xl xr e.ds) (hn : 1 ≤ e.ds.length) {k : ℕ} {onLeft : Bool} (h : Piece e k onLeft) :
    leftX e k < rightX e k ∧ xl ≤ leftX e k ∧ rightX e k ≤ xr ∧ (∀ (i : ℕ) (d : Pt), i < k → e.ds[i]? = some d → d.1 ≤ leftX e k) ∧ ∀ (i : ℕ) (d : Pt), k ≤ i → e.ds[i]? = some d → rightX e k ≤ d.1 := by
  have hpl := place_of_piece hr h
  have hk : k ≤ e.ds.length := by
    unfold Place at hpl; split_ifs at hpl
    · exact hpl.2
    · exact hpl.le
  have hL : (k = 0 ∧ leftX e k = xl) ∨ ∃ d, 1 ≤ k ∧ e.ds[k - 1]? = some d ∧ leftX e k = d.1 := by
    rcases Nat.eq_zero_or_pos k with rfl | h0
    · left
      obtain ⟨m, h1, h2⟩ := bound_left hr
      refine ⟨rfl, ?_⟩
      simp [leftX, back, List.getD, h1, h2]
    · right
      have hd : e.ds[k - 1]? = some e.ds[k - 1] := List.getElem?_eq_getElem (by omega)
      have hb : back e.ds k 1 = some e.ds[k - 1] := by unfold back; rw [if_pos (show 1 ≤ k from h0)]; exact hd
      refine ⟨_, h0, hd, ?_⟩
      rw [leftX, hb]
  have hR : (k = e.ds.length ∧ rightX e k = xr) ∨ ∃ d, e.ds[k]? = some d ∧ rightX e k = d.1 := by
    rcases hk.eq_or_lt with h0 | h0
    · left
      obtain ⟨m, h1, h2⟩ := bound_right hr hn
      have hd : e.ds[k]? = none := List.getElem?_eq_none (by omega)
      refine ⟨h0, ?_⟩
      rw [rightX, hd, List.getD, h0, h1]
      exact h2
    · right
      have hd : e.ds[k]? = some e.ds[k] := List.getElem?_eq_getElem h0
      exact ⟨_, hd, by rw [rightX, hd]⟩
  have hlt : leftX e k < rightX e k := by
    rcases hL with ⟨h0, hL⟩ | ⟨d, h0, hd, hL⟩
    · rcases hR with ⟨h1, hR⟩ | ⟨d', hd', hR⟩
      · omega
      · obtain ⟨a, b, p1, p2, p3⟩ := h
        cases onLeft with
        | true => simp [Place] at hpl; omega
        | false =>
          simp only [pieceL, pieceR, if_neg Bool.false_ne_true] at p1 p2
          obtain ⟨m, h1, h2⟩ := bound_left hr
          rw [h0, h1] at p1
          rw [hd'] at p2
          rw [hL, hR, ← h2, Option.some.inj p1, Option.some.inj p2]
          exact p3
    · rcases hR with ⟨h1, hR⟩ | ⟨d', hd', hR⟩
      · obtain ⟨a, b, p1, p2, p3⟩ := h
        cases onLeft with
        | false => simp [Place] at hpl; omega
        | true =>
          simp only [pieceL, pieceR, if_true] at p1 p2
          obtain ⟨m, h3, h4⟩ := bound_right hr hn
          rw [h1, h3] at p2
          have p1 := (back_some p1).2
          rw [hd] at p1
          rw [hL, hR, ← h4, Option.some.inj p1, Option.some.inj p2]
          exact p3
      · rw [hL, hR]
        exact pts_lt hp (by omega) hd hd'
  refine ⟨hlt, ?_, ?_, ?_, ?_⟩
  · rcases hL with ⟨-, hL⟩ | ⟨d, h0, hd, hL⟩
    · exact hL.ge
    · rw [hL]; exact (pts_mem hp hd).2.1
  · rcases hR with ⟨-, hR⟩ | ⟨d, hd, hR⟩
    · exact hR.le
    · rw [hR]; exact (pts_mem hp hd).2.2
  · intro i d hi hd
    rcases hL with ⟨h0, hL⟩ | ⟨d', h0, hd', hL⟩
    · omega
    · rw [hL]
      rcases Nat.lt_or_ge i (k - 1) with h | h
      · exact (pts_lt hp h hd hd').le
      · have : i = k - 1 := by omega
        rw [this, hd'] at hd
        rw [Option.some.inj hd]
  · intro i d hi hd
    rcases hR with ⟨h0, hR⟩ | ⟨d', hd', hR⟩
    · have := (List.getElem?_eq_some_iff.mp hd).1
      omega
    · rw [hR]
      rcases hi.eq_or_lt with h | h
      · rw [← h, hd'] at hd
        rw [Option.some.inj hd]
      · exact (pts_lt hp h hd' hd).le

theorem refresh_ds {metro : Bool} {convex : ℝ} {e r : Env} {k : ℕ} (h : refresh metro convex k e = some r) : r.ds = e.ds := by
  unfold refresh at h
  simp only [Option.bind_eq_some_iff, Option.some.injEq] at h
  obtain ⟨_, _, _, _, _, _, _, _, h⟩ := h
  rw [← h]

theorem insert_take_drop {α : Type*} (q : α) : ∀ (l : List α) (k : ℕ), k ≤ l.length → l.insertIdx k q = l.take k ++ q :: l.drop k
  | l, 0, _ => by simp
  | [], k + 1, h => by simp at h
  | a :: l, k + 1, h => by
    rw [List.insertIdx_succ_cons, insert_take_drop q l k (by simpa using h)]
    simp

theorem points_insert {F : ℝ → ℝ} {xl xr : ℝ} {ds : List Pt} (hp : Points F xl xr ds) (k : ℕ) (hk : k ≤ ds.length) (q : Pt) (hq : On F q ∧ xl ≤ q.1 ∧ q.1 ≤ xr)
    (h1 : ∀ (i : ℕ) (d : Pt), i < k → ds[i]? = some d → d.1 < q.1) (h2 : ∀ (i : ℕ) (d : Pt), k ≤ i → ds[i]? = some d → q.1 < d.1) : Points F xl xr (ds.insertIdx k q) := by
  refine ⟨?_, ?_⟩
  · intro d hd
    rcases List.eq_or_mem_of_mem_insertIdx hd with rfl | h
    · exact hq
    · exact hp.1 d h
  · rw [insert_take_drop q ds k hk]
    rw [List.pairwise_append]
    refine ⟨hp.2.sublist (List.take_sublist _ _), ?_, ?_⟩
    · rw [List.pairwise_cons]
      refine ⟨fun b hb => ?_, hp.2.sublist (List.drop_sublist _ _)⟩
      obtain ⟨i, hi, rfl⟩ := List.getElem_of_mem hb
      rw [List.getElem_drop]
      exact h2 (k + i) _ (by omega) (List.getElem?_eq_getElem _)
    · intro a ha b hb
      obtain ⟨i, hi, rfl⟩ := List.getElem_of_mem ha
      have hik : i < k := by simp at hi; exact hi.1
      rw [List.getElem_take]
      have A := h1 i _ hik (List.getElem?_eq_getElem (by omega))
      rcases List.mem_cons.mp hb with rfl | hb
      · exact A
      · obtain ⟨j, hj, rfl⟩ := List.getElem_of_mem hb
        rw [List.getElem_drop]
        exact A.trans (h2 (k + j) _ (by omega) (List.getElem?_eq_getElem _))

/-- What is true of every envelope. -/
structure Sound (F : ℝ → ℝ) (metro : Bool) (convex xl xr : ℝ) (npoint : ℕ) (e : Env) : Prop where
  points : Points F xl xr e.ds
  rendered : Rendered metro convex xl xr e
  three : 3 ≤ e.ds.length
  room : 2 * e.ds.length + 1 ≤ npoint

theorem update_points {F : ℝ → ℝ} {metro : Bool} {convex xl xr : ℝ} {npoint : ℕ} {junk : Pt} {e r : Env} {k : ℕ} {onLeft : Bool} {x : ℝ} (hs : Sound F metro convex xl xr npoint e) (hp : Piece e k onLeft)
    (h : update F metro convex npoint junk e k onLeft x = some r) :
    (2 * e.ds.length + 1 > npoint - 2 ∧ r = e) ∨
    (2 * e.ds.length + 1 ≤ npoint - 2 ∧ r.ds = e.ds.insertIdx k (moved (leftX e k) (rightX e k) x, F (moved (leftX e k) (rightX e k) x)) ∧ Points F xl xr r.ds ∧ r.ds.length = e.ds.length + 1) := by
  unfold update at h
  split_ifs at h with hfull
  · exact Or.inl ⟨hfull, (Option.some.inj h).symm⟩
  · right
    obtain ⟨i1, i2, i3, i4, i5⟩ := interval hs.rendered hs.points (by have := hs.three; omega) hp
    obtain ⟨m1, m2⟩ := moved_between _ _ x i1
    have hk : k ≤ e.ds.length := by
      have hpl := place_of_piece hs.rendered hp
      unfold Place at hpl; split_ifs at hpl
      · exact hpl.2
      · exact hpl.le
    have e1 := refresh_ds h
    refine ⟨by omega, e1, ?_, ?_⟩
    · rw [e1]
      exact points_insert hs.points k hk _ ⟨rfl, by simp only; linarith, by simp only; linarith⟩ (fun i d hi hd => lt_of_le_of_lt (i4 i d hi hd) m1) (fun i d hi hd => lt_of_lt_of_le m2 (i5 i d hi hd))
    · rw [e1]
      exact List.length_insertIdx_of_le_length hk _

theorem sound_update {F : ℝ → ℝ} {metro : Bool} {convex xl xr : ℝ} {npoint : ℕ} {junk : Pt} {e r : Env} {k : ℕ} {onLeft : Bool} {x : ℝ} (hs : Sound F metro convex xl xr npoint e) (hp : Piece e k onLeft)
    (h : update F metro convex npoint junk e k onLeft x = some r) : Sound F metro convex xl xr npoint r := by
  have h3 := hs.three
  rcases update_points hs hp h with ⟨-, rfl⟩ | ⟨h0, -, h1, h2⟩
  · exact hs
  · exact ⟨h1, update_rendered hs.rendered (by omega) (place_of_piece hs.rendered hp) h, by omega, by omega⟩

/-- C153: every envelope that comes up, whatever the log density and whatever the points drawn: its points are on the log density, from left to right, all within the bounds; the other points are where the chords of neighbouring points meet; at least three points; never more nodes than were allocated. -/
theorem C153_reach {F : ℝ → ℝ} {metro : Bool} {convex xl xr : ℝ} {npoint : ℕ} {e : Env} (h : Reach F metro convex xl xr npoint e) : Sound F metro convex xl xr npoint e := by
  induction h with
  | init xinit e h =>
    obtain ⟨-, h1, h2, h3, h4⟩ := initial_points F metro convex xl xr npoint xinit e h
    exact ⟨h1, h4, h2, h3⟩
  | step e junk k onLeft x r _ hp hu ih => exact sound_update ih hp hu

/-- C153: whatever has been drawn, the envelope of a log-concave density is nowhere below the log density, between the bounds. -/
theorem C153_above {F : ℝ → ℝ} {metro : Bool} {convex xl xr : ℝ} {npoint : ℕ} (hF : ConcaveOn ℝ (Icc xl xr) F) {e : Env} (h : Reach F metro convex xl xr npoint e) (x : ℝ) (hx : x ∈ Icc xl xr) : F x ≤ height (nodes e.ms e.ds) x :=
  C152_above hF metro convex e (C153_reach h).points (C153_reach h).rendered (C153_reach h).three x hx

theorem redo_some {metro : Bool} {convex : ℝ} {ds ms : List Pt} {j : ℕ} (hj : j < ms.length) (h : ∀ x0, ∃ m, meetAt metro convex ds x0 j = some m) : ∃ r, redo metro convex ds j ms = some r ∧ r.length = ms.length := by
  obtain ⟨m, hm⟩ := h ms[j].1
  refine ⟨ms.set j m, ?_, by simp⟩
  unfold redo
  rw [List.getElem?_eq_getElem hj, Option.bind_some, hm, Option.bind_some]

theorem refresh_some {metro : Bool} {convex : ℝ} {e : Env} {k : ℕ} (hl : e.ms.length = e.ds.length + 1) (hk : k < e.ds.length) (h : ∀ j ≤ e.ds.length, ∀ x0, ∃ m, meetAt metro convex e.ds x0 j = some m) : ∃ r, refresh metro convex k e = some r := by
  unfold refresh
  obtain ⟨m1, h1, l1⟩ := redo_some (ms := e.ms) (j := k) (by omega) (h k (by omega))
  obtain ⟨m2, h2, l2⟩ := redo_some (ms := m1) (j := k + 1) (by omega) (h (k + 1) (by omega))
  rw [h1, Option.bind_some, h2, Option.bind_some]
  obtain ⟨m3, h3, l3⟩ : ∃ m3, (if 1 ≤ k then redo metro convex e.ds (k - 1) m2 else some m2) = some m3 ∧ m3.length = m2.length := by
    by_cases hk1 : 1 ≤ k
    · rw [if_pos hk1]; exact redo_some (by omega) (h (k - 1) (by omega))
    · rw [if_neg hk1]; exact ⟨m2, rfl, rfl⟩
  rw [h3, Option.bind_some]
  by_cases hk1 : k + 1 < e.ds.length
  · rw [if_pos hk1]
    obtain ⟨m4, h4, -⟩ := redo_some (ms := m3) (j := k + 2) (by omega) (h (k + 2) (by omega))
    rw [h4]
    exact ⟨_, rfl⟩
  · rw [if_neg hk1]
    exact ⟨_, rfl⟩

/-- With Metropolis steps `meet` never fails, whatever the points. -/
theorem meetAt_metro (convex x0 : ℝ) (ds : List Pt) (hn : 3 ≤ ds.length) (k : ℕ) (hk : k ≤ ds.length) : ∃ m, meetAt true convex ds x0 k = some m := by
  rcases Nat.eq_zero_or_pos k with rfl | hk0
  · match ds, hn with
    | a :: b :: l, _ => exact ⟨_, meetAt_zero true convex x0 a b l⟩
  · rcases hk.eq_or_lt with h | h
    · obtain ⟨n, hn'⟩ : ∃ n, ds.length = n + 2 := ⟨ds.length - 2, by omega⟩
      rw [h, hn']
      exact ⟨_, meetAt_last true convex x0 ds n hn' _ _ (List.getElem?_eq_getElem (by omega)) (List.getElem?_eq_getElem (by omega))⟩
    · have e1 : back ds k 1 = some ds[k - 1] := by unfold back; rw [if_pos (show 1 ≤ k from hk0), List.getElem?_eq_getElem]
      rw [meetAt, e1, List.getElem?_eq_getElem h, meet]
      have HL : ∀ a : Pt, ∃ d, leftD true convex (some a) ds[k - 1] ds[k] = some (some d) := fun a => by unfold leftD; simp only; split_ifs <;> exact ⟨_, rfl⟩
      have HR : ∀ a : Pt, ∃ d, rightD true convex ds[k - 1] ds[k] (some a) = some (some d) := fun a => by unfold rightD; simp only; split_ifs <;> exact ⟨_, rfl⟩
      by_cases h2 : 2 ≤ k
      · have e2 : back ds k 2 = some ds[k - 2] := by unfold back; rw [if_pos h2, List.getElem?_eq_getElem]
        obtain ⟨d, hd⟩ := HL ds[k - 2]
        rw [e2, hd, Option.bind_some]
        cases h3 : ds[k + 1]? with
        | none => exact ⟨_, rfl⟩
        | some b =>
          obtain ⟨d', hd'⟩ := HR b
          rw [hd']
          exact ⟨_, rfl⟩
      · have e2 : back ds k 2 = none := by unfold back; rw [if_neg h2]
        obtain ⟨d', hd'⟩ := HR ds[k + 1]
        rw [e2, List.getElem?_eq_getElem (show k + 1 < ds.length by omega), hd']
        exact ⟨_, rfl⟩

/-- C153: an update never fails for a log-concave density, nor with Metropolis steps for any log density: "envelope violation" comes up only without Metropolis for one that isn't log-concave. -/
theorem C153_update {F : ℝ → ℝ} {metro : Bool} {convex xl xr : ℝ} {npoint : ℕ} (hF : metro = true ∨ ConcaveOn ℝ (Icc xl xr) F) {e : Env} (h : Reach F metro convex xl xr npoint e) (junk : Pt) (k : ℕ) (onLeft : Bool) (hp : Piece e k onLeft) (x : ℝ) :
    ∃ r, update F metro convex npoint junk e k onLeft x = some r := by
  have hs := C153_reach h
  have h3 := hs.three
  unfold update
  split_ifs with hfull
  · exact ⟨_, rfl⟩
  · have hpl := place_of_piece hs.rendered hp
    obtain ⟨i1, i2, i3, i4, i5⟩ := interval hs.rendered hs.points (by omega) hp
    obtain ⟨m1, m2⟩ := moved_between _ _ x i1
    have hk : k ≤ e.ds.length := by
      unfold Place at hpl; split_ifs at hpl
      · exact hpl.2
      · exact hpl.le
    generalize hq : (moved (leftX e k) (rightX e k) x, F (moved (leftX e k) (rightX e k) x)) = q
    have hq1 : q.1 = moved (leftX e k) (rightX e k) x := by rw [← hq]
    have hds : (inserted e k onLeft junk q).ds.length = e.ds.length + 1 := List.length_insertIdx_of_le_length hk q
    have hpt : Points F xl xr (inserted e k onLeft junk q).ds := points_insert hs.points k hk q ⟨by rw [← hq]; rfl, by rw [hq1]; linarith, by rw [hq1]; linarith⟩
      (fun i d hi hd => by rw [hq1]; exact lt_of_le_of_lt (i4 i d hi hd) m1) (fun i d hi hd => by rw [hq1]; exact lt_of_lt_of_le m2 (i5 i d hi hd))
    refine refresh_some (inserted_bounds hs.rendered (by omega) k onLeft hpl junk q).1 (by omega) fun j hj x0 => ?_
    rcases hF with rfl | hF
    · exact meetAt_metro convex x0 _ (by omega) j hj
    · exact meetAt_some hF metro convex x0 _ hpt (by omega) j hj

/-- C153: with room, an update adds the point drawn, or if it is too close to a neighbour one a hundred-thousandth of the way, and loses none. -/
theorem C153_points {F : ℝ → ℝ} {metro : Bool} {convex xl xr : ℝ} {npoint : ℕ} {junk : Pt} {e r : Env} {k : ℕ} {onLeft : Bool} {x : ℝ} (h : Reach F metro convex xl xr npoint e) (hp : Piece e k onLeft) (hroom : 2 * e.ds.length + 3 ≤ npoint)
    (hu : update F metro convex npoint junk e k onLeft x = some r) : ∀ d : Pt, d ∈ r.ds ↔ d = (moved (leftX e k) (rightX e k) x, F (moved (leftX e k) (rightX e k) x)) ∨ d ∈ e.ds := by
  have hk : k ≤ e.ds.length := by
    have hpl := place_of_piece (C153_reach h).rendered hp
    unfold Place at hpl; split_ifs at hpl
    · exact hpl.2
    · exact hpl.le
  rcases update_points (C153_reach h) hp hu with ⟨h0, -⟩ | ⟨-, h1, -, -⟩
  · omega
  · intro d
    rw [h1, List.mem_insertIdx hk]

end Apop.Arms
