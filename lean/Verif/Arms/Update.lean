import Verif.Arms.Envelope

/-! # C152-C153: every envelope that can come up -/

namespace Apop.Arms

open Set

theorem allSome_get {α : Type*} : ∀ (l : List (Option α)) (r : List α), allSome l = some r → r.length = l.length ∧ ∀ k, k < l.length → ∃ a, r[k]? = some a ∧ l[k]? = some (some a)
  | [], r, h => by simp only [allSome, Option.some.injEq] at h; subst h; simp
  | a :: l, r, h => by
    cases a with
    | none => simp [allSome] at h
    | some x =>
      cases hl : allSome l with
      | none => simp [allSome, hl] at h
      | some r' =>
        simp only [allSome, hl, Option.bind_some, Option.some.injEq] at h
        subst h
        obtain ⟨h1, h2⟩ := allSome_get l r' hl
        refine ⟨by simp [h1], fun k hk => ?_⟩
        cases k with
        | zero => exact ⟨x, by simp, by simp⟩
        | succ k => obtain ⟨a, ha⟩ := h2 k (by simpa using hk); exact ⟨a, by simpa using ha⟩

theorem allSome_ok {α : Type*} : ∀ l : List (Option α), (∀ a ∈ l, a ≠ none) → ∃ r, allSome l = some r
  | [], _ => ⟨[], rfl⟩
  | a :: l, h => by
    obtain ⟨r, hr⟩ := allSome_ok l fun b hb => h b (by simp [hb])
    cases a with
    | none => exact absurd rfl (h none (by simp))
    | some x => exact ⟨x :: r, by simp [allSome, hr]⟩

theorem points_map (F : ℝ → ℝ) (xl xr : ℝ) (xs : List ℝ) (hh : ∀ x ∈ xs.head?, xl ≤ x) (hl : ∀ x ∈ xs.getLast?, x ≤ xr) (hc : xs.IsChain (· < ·)) : Points F xl xr (xs.map fun x => (x, F x)) := by
  have hp := List.isChain_iff_pairwise.mp hc
  refine ⟨?_, ?_⟩
  · intro d hd
    obtain ⟨x, hx, rfl⟩ := List.mem_map.mp hd
    refine ⟨rfl, ?_, ?_⟩
    · cases xs with
      | nil => simp at hx
      | cons y l =>
        have h0 := hh y (by simp)
        rcases List.mem_cons.mp hx with rfl | h
        · exact h0
        · have := List.rel_of_pairwise_cons hp h
          simp only; linarith
    · have hne : xs ≠ [] := List.ne_nil_of_mem hx
      have h0 := hl (xs.getLast hne) (by rw [List.getLast?_eq_some_getLast hne]; rfl)
      obtain ⟨i, hi, rfl⟩ := List.getElem_of_mem hx
      rcases Nat.lt_or_ge i (xs.length - 1) with h | h
      · have := List.pairwise_iff_getElem.mp hp i (xs.length - 1) hi (by omega) h
        rw [List.getLast_eq_getElem] at h0
        simp only; linarith
      · have : i = xs.length - 1 := by omega
        rw [List.getLast_eq_getElem] at h0
        subst this
        exact h0
  · rw [List.pairwise_map]
    exact hp

theorem initial_points (F : ℝ → ℝ) (metro : Bool) (convex xl xr : ℝ) (npoint : ℕ) (xs : List ℝ) (e : Env) (h : initial F metro convex xl xr npoint xs = some e) :
    e.ds = xs.map (fun x => (x, F x)) ∧ Points F xl xr e.ds ∧ 3 ≤ e.ds.length ∧ 2 * e.ds.length + 1 ≤ npoint ∧ Rendered metro convex xl xr e := by
  unfold initial at h
  split_ifs at h with hc
  obtain ⟨h1, h2, h3, h4, h5, h6⟩ := hc
  cases hm : allSome ((List.range (xs.length + 1)).map fun k => meetAt metro convex (xs.map fun x => (x, F x)) (if k = 0 then xl else xr) k) with
  | none => rw [hm] at h; simp at h
  | some ms =>
    rw [hm] at h
    simp only [Option.bind_some, Option.some.injEq] at h
    subst h
    refine ⟨rfl, points_map F xl xr xs h3 h4 h5, by simpa using h1, by simpa using h2, ?_⟩
    obtain ⟨hl, hg⟩ := allSome_get _ _ hm
    refine ⟨by simpa using hl, fun k hk => ?_⟩
    have hk' : k < xs.length + 1 := by simp at hk; omega
    obtain ⟨a, ha, hb⟩ := hg k (by simpa using hk')
    refine ⟨a, ha, ?_⟩
    rw [List.getElem?_map, List.getElem?_range hk'] at hb
    simpa using hb

/-- For a concave log density, `meet` always succeeds. -/
theorem meetAt_some {F : ℝ → ℝ} {xl xr : ℝ} (hF : ConcaveOn ℝ (Icc xl xr) F) (metro : Bool) (convex x0 : ℝ) (ds : List Pt) (hp : Points F xl xr ds) (hn : 3 ≤ ds.length) (k : ℕ) (hk : k ≤ ds.length) :
    ∃ m, meetAt metro convex ds x0 k = some m := by
  rcases Nat.eq_zero_or_pos k with rfl | hk0
  · match ds, hn with
    | a :: b :: l, _ => exact ⟨_, meetAt_zero metro convex x0 a b l⟩
  · rcases hk.eq_or_lt with h | h
    · obtain ⟨n, hn'⟩ : ∃ n, ds.length = n + 2 := ⟨ds.length - 2, by omega⟩
      have ha : ds[n]? = some ds[n] := List.getElem?_eq_getElem (by omega)
      have hb : ds[n + 1]? = some ds[n + 1] := List.getElem?_eq_getElem (by omega)
      rw [h, hn']
      exact ⟨_, meetAt_last metro convex x0 ds n hn' _ _ ha hb⟩
    · obtain ⟨j, rfl⟩ : ∃ j, k = j + 1 := ⟨k - 1, by omega⟩
      have ha : ds[j]? = some ds[j] := List.getElem?_eq_getElem (by omega)
      have hb : ds[j + 1]? = some ds[j + 1] := List.getElem?_eq_getElem (by omega)
      obtain ⟨q, hq, -⟩ := meetAt_over hF metro convex x0 ds hp hn j _ _ ha hb
      exact ⟨q, hq⟩

/-- C152: setting up succeeds for a log-concave density and at least three increasing points within the bounds, with room for them. -/
theorem C152_initial {F : ℝ → ℝ} {xl xr : ℝ} (hF : ConcaveOn ℝ (Icc xl xr) F) (metro : Bool) (convex : ℝ) (hc : 0 ≤ convex) (npoint : ℕ) (xs : List ℝ)
    (h3 : 3 ≤ xs.length) (hn : 2 * xs.length + 1 ≤ npoint) (hb : ∀ x ∈ xs, x ∈ Icc xl xr) (hs : xs.IsChain (· < ·)) :
    ∃ e, initial F metro convex xl xr npoint xs = some e ∧ ∀ x ∈ Icc xl xr, F x ≤ height (nodes e.ms e.ds) x := by
  have hh : ∀ x ∈ xs.head?, xl ≤ x := fun x hx => (hb x (List.mem_of_mem_head? hx)).1
  have hl : ∀ x ∈ xs.getLast?, x ≤ xr := fun x hx => (hb x (List.mem_of_getLast? hx)).2
  have hp := points_map F xl xr xs hh hl hs
  obtain ⟨r, hr⟩ := allSome_ok ((List.range (xs.length + 1)).map fun k => meetAt metro convex (xs.map fun x => (x, F x)) (if k = 0 then xl else xr) k) (by
    intro a ha
    obtain ⟨k, hk, rfl⟩ := List.mem_map.mp ha
    obtain ⟨m, hm⟩ := meetAt_some hF metro convex (if k = 0 then xl else xr) _ hp (by simpa using h3) k (by have := List.mem_range.mp hk; simp; omega)
    rw [hm]; simp)
  have hi : initial F metro convex xl xr npoint xs = some ⟨xs.map fun x => (x, F x), r⟩ := by
    unfold initial
    rw [if_pos ⟨h3, hn, hh, hl, hs, hc⟩, hr]
    rfl
  obtain ⟨-, p1, p2, -, p4⟩ := initial_points F metro convex xl xr npoint xs _ hi
  exact ⟨_, hi, fun x hx => C152_above hF metro convex _ p1 p4 p2 x hx⟩

/-! ### The update -/

/-- A bound keeps its x. -/
theorem meetAt_fst (metro : Bool) (convex x0 : ℝ) (ds : List Pt) (j : ℕ) (m : Pt) (hj : j = 0 ∨ ds.length ≤ j) (h : meetAt metro convex ds x0 j = some m) : m.1 = x0 := by
  rw [meetAt] at h
  rcases hj with rfl | hj
  · have e : back ds 0 1 = none := by simp [back]
    rw [e] at h
    cases hd : ds[0]? with
    | none => rw [hd] at h; simp [meet] at h
    | some d =>
      rw [hd] at h
      cases hd' : ds[0 + 1]? with
      | none => rw [hd'] at h; simp [meet] at h
      | some d' => rw [hd'] at h; simp only [meet, Option.bind_some, Option.some.injEq] at h; rw [← h]
  · have e : ds[j]? = none := List.getElem?_eq_none hj
    rw [e] at h
    cases hd : back ds j 1 with
    | none => rw [hd] at h; simp [meet] at h
    | some d =>
      rw [hd] at h
      cases hd' : back ds j 2 with
      | none => rw [hd'] at h; simp [meet] at h
      | some d' => rw [hd'] at h; simp only [meet, Option.bind_some, Option.some.injEq] at h; rw [← h]

/-- An intersection's old x plays no part. -/
theorem meetAt_inner (metro : Bool) (convex x0 x1 : ℝ) (ds : List Pt) (j : ℕ) (h0 : 1 ≤ j) (h1 : j < ds.length) : meetAt metro convex ds x0 j = meetAt metro convex ds x1 j := by
  have e1 : back ds j 1 = some ds[j - 1] := by rw [back, if_pos h0, List.getElem?_eq_getElem]
  rw [meetAt, meetAt, e1, List.getElem?_eq_getElem h1]
  rfl

/-- The j-th of the other points is what `meet` makes it. -/
def Good (metro : Bool) (convex xl xr : ℝ) (ds ms : List Pt) (j : ℕ) : Prop := ∃ m, ms[j]? = some m ∧ meetAt metro convex ds (if j = 0 then xl else xr) j = some m

/-- The bounds are where they should be. -/
def Bounds (xl xr : ℝ) (ds ms : List Pt) : Prop := ms.length = ds.length + 1 ∧ (∀ m, ms[0]? = some m → m.1 = xl) ∧ ∀ m, ms[ds.length]? = some m → m.1 = xr

theorem redo_good {metro : Bool} {convex xl xr : ℝ} {ds ms r : List Pt} {j : ℕ} (hn : 1 ≤ ds.length) (hj : j ≤ ds.length) (hb : Bounds xl xr ds ms) (h : redo metro convex ds j ms = some r) :
    Bounds xl xr ds r ∧ Good metro convex xl xr ds r j ∧ ∀ i, Good metro convex xl xr ds ms i → Good metro convex xl xr ds r i := by
  obtain ⟨b1, b2, b3⟩ := hb
  unfold redo at h
  have hjl : j < ms.length := by omega
  rw [List.getElem?_eq_getElem hjl, Option.bind_some] at h
  cases hm : meetAt metro convex ds ms[j].1 j with
  | none => rw [hm] at h; simp at h
  | some m' =>
    rw [hm] at h
    simp only [Option.bind_some, Option.some.injEq] at h
    have hx : meetAt metro convex ds (if j = 0 then xl else xr) j = some m' := by
      rw [← hm]
      by_cases h0 : j = 0
      · subst h0
        rw [if_pos rfl, b2 ms[0] (List.getElem?_eq_getElem hjl)]
      · rw [if_neg h0]
        rcases hj.eq_or_lt with h1 | h1
        · have : ms[j].1 = xr := b3 ms[j] (by rw [← h1]; exact List.getElem?_eq_getElem hjl)
          rw [this]
        · exact meetAt_inner metro convex _ _ ds j (by omega) h1
    have hg : Good metro convex xl xr ds r j := ⟨m', by rw [← h, List.getElem?_set_self hjl], hx⟩
    refine ⟨⟨by rw [← h, List.length_set, b1], ?_, ?_⟩, hg, ?_⟩
    · intro m hm0
      by_cases h0 : j = 0
      · subst h0
        rw [← h, List.getElem?_set_self hjl] at hm0
        rw [← Option.some.inj hm0]
        rw [if_pos rfl] at hx
        exact meetAt_fst metro convex xl ds 0 m' (Or.inl rfl) hx
      · rw [← h, List.getElem?_set_ne h0] at hm0
        exact b2 m hm0
    · intro m hm0
      by_cases h0 : j = ds.length
      · rw [← h, ← h0, List.getElem?_set_self hjl] at hm0
        rw [← Option.some.inj hm0]
        rw [if_neg (by omega)] at hx
        exact meetAt_fst metro convex xr ds j m' (Or.inr (by omega)) hx
      · rw [← h, List.getElem?_set_ne h0] at hm0
        exact b3 m hm0
    · intro i hi
      by_cases h0 : j = i
      · rw [← h0]; exact hg
      · obtain ⟨m, p1, p2⟩ := hi
        exact ⟨m, by rw [← h, List.getElem?_set_ne h0]; exact p1, p2⟩

/-- After the four calls every point that wasn't redone is as it was, and the four are right. -/
theorem refresh_good {metro : Bool} {convex xl xr : ℝ} {e r : Env} {k : ℕ} (hn : 1 ≤ e.ds.length) (hk : k < e.ds.length) (hb : Bounds xl xr e.ds e.ms) (h : refresh metro convex k e = some r) :
    r.ds = e.ds ∧ Bounds xl xr e.ds r.ms ∧ ∀ i ≤ e.ds.length, (i + 1 < k ∨ k + 2 < i → Good metro convex xl xr e.ds e.ms i) → Good metro convex xl xr e.ds r.ms i := by
  unfold refresh at h
  cases h1 : redo metro convex e.ds k e.ms with
  | none => rw [h1] at h; simp at h
  | some m1 =>
    obtain ⟨b1, g1, o1⟩ := redo_good hn hk.le hb h1
    rw [h1, Option.bind_some] at h
    cases h2 : redo metro convex e.ds (k + 1) m1 with
    | none => rw [h2] at h; simp at h
    | some m2 =>
      obtain ⟨b2, g2, o2⟩ := redo_good hn (by omega) b1 h2
      rw [h2, Option.bind_some] at h
      obtain ⟨m3, h3, b3, g3, o3⟩ : ∃ m3, (if 1 ≤ k then redo metro convex e.ds (k - 1) m2 else some m2) = some m3 ∧ Bounds xl xr e.ds m3 ∧ (1 ≤ k → Good metro convex xl xr e.ds m3 (k - 1)) ∧ ∀ i, Good metro convex xl xr e.ds m2 i → Good metro convex xl xr e.ds m3 i := by
        by_cases hk1 : 1 ≤ k
        · rw [if_pos hk1] at h ⊢
          cases h3 : redo metro convex e.ds (k - 1) m2 with
          | none => rw [h3] at h; simp at h
          | some m3 =>
            obtain ⟨b3, g3, o3⟩ := redo_good hn (by omega) b2 h3
            exact ⟨m3, rfl, b3, fun _ => g3, o3⟩
        · rw [if_neg hk1]
          exact ⟨m2, rfl, b2, fun h => absurd h hk1, fun _ h => h⟩
      rw [h3, Option.bind_some] at h
      obtain ⟨m4, h4, b4, g4, o4⟩ : ∃ m4, (if k + 1 < e.ds.length then redo metro convex e.ds (k + 2) m3 else some m3) = some m4 ∧ Bounds xl xr e.ds m4 ∧ (k + 1 < e.ds.length → Good metro convex xl xr e.ds m4 (k + 2)) ∧ ∀ i, Good metro convex xl xr e.ds m3 i → Good metro convex xl xr e.ds m4 i := by
        by_cases hk1 : k + 1 < e.ds.length
        · rw [if_pos hk1] at h ⊢
          cases h4 : redo metro convex e.ds (k + 2) m3 with
          | none => rw [h4] at h; simp at h
          | some m4 =>
            obtain ⟨b4, g4, o4⟩ := redo_good hn (by omega) b3 h4
            exact ⟨m4, rfl, b4, fun _ => g4, o4⟩
        · rw [if_neg hk1]
          exact ⟨m3, rfl, b3, fun h => absurd h hk1, fun _ h => h⟩
      rw [h4] at h
      simp only [Option.bind_some, Option.some.injEq] at h
      subst h
      refine ⟨rfl, b4, fun i hi hold => ?_⟩
      by_cases c1 : i = k
      · subst c1; exact o4 _ (o3 _ (o2 _ g1))
      by_cases c2 : i = k + 1
      · subst c2; exact o4 _ (o3 _ g2)
      by_cases c3 : i = k + 2
      · subst c3; exact g4 (by omega)
      by_cases c4 : i + 1 = k
      · have : i = k - 1 := by omega
        rw [this]
        exact o4 _ (g3 (by omega))
      · exact o4 _ (o3 _ (o2 _ (o1 _ (hold (by omega)))))

/-- Where the new point can go: `onLeft` needs a point on its left, otherwise there must be one on its right. -/
def Place (e : Env) (k : ℕ) (onLeft : Bool) : Prop := if onLeft then 1 ≤ k ∧ k ≤ e.ds.length else k < e.ds.length

theorem meetAt_before (metro : Bool) (convex x0 : ℝ) (ds : List Pt) (k j : ℕ) (q : Pt) (hk : k ≤ ds.length) (hj : j + 1 < k) : meetAt metro convex (ds.insertIdx k q) x0 j = meetAt metro convex ds x0 j := by
  have g : ∀ i, i < k → (ds.insertIdx k q)[i]? = ds[i]? := fun i hi => List.getElem?_insertIdx_of_lt hi
  rw [meetAt, meetAt, g j (by omega), g (j + 1) hj, back, back, back, back, g (j - 2) (by omega), g (j - 1) (by omega)]

theorem meetAt_after (metro : Bool) (convex x0 : ℝ) (ds : List Pt) (k j : ℕ) (q : Pt) (hk : k ≤ ds.length) (hj : k + 2 < j) : meetAt metro convex (ds.insertIdx k q) x0 j = meetAt metro convex ds x0 (j - 1) := by
  have g : ∀ i, k < i → (ds.insertIdx k q)[i]? = ds[i - 1]? := fun i hi => by
    rw [List.getElem?_insertIdx_of_gt hi]
  have e1 : j + 1 - 1 = j - 1 + 1 := by omega
  have e2 : j - 2 - 1 = j - 1 - 2 := by omega
  rw [meetAt, meetAt, g j (by omega), g (j + 1) (by omega), back, back, back, back, g (j - 2) (by omega), g (j - 1) (by omega), e1, e2,
    if_pos (show 2 ≤ j by omega), if_pos (show 1 ≤ j by omega), if_pos (show 2 ≤ j - 1 by omega), if_pos (show 1 ≤ j - 1 by omega)]

theorem inserted_bounds {metro : Bool} {convex xl xr : ℝ} {e : Env} (hr : Rendered metro convex xl xr e) (hn : 1 ≤ e.ds.length) (k : ℕ) (onLeft : Bool) (hp : Place e k onLeft) (junk q : Pt) :
    Bounds xl xr (inserted e k onLeft junk q).ds (inserted e k onLeft junk q).ms := by
  obtain ⟨hl, hr⟩ := hr
  have hf0 : ∀ m, e.ms[0]? = some m → m.1 = xl := fun m hm => by
    obtain ⟨m', h1, h2⟩ := hr 0 (by omega)
    rw [hm] at h1
    rw [Option.some.inj h1]
    exact meetAt_fst metro convex xl e.ds 0 m' (Or.inl rfl) (by simpa using h2)
  have hf1 : ∀ m, e.ms[e.ds.length]? = some m → m.1 = xr := fun m hm => by
    obtain ⟨m', h1, h2⟩ := hr e.ds.length (le_refl _)
    rw [hm] at h1
    rw [Option.some.inj h1]
    rw [if_neg (by omega)] at h2
    exact meetAt_fst metro convex xr e.ds _ m' (Or.inr (le_refl _)) h2
  have hk : k ≤ e.ds.length := by
    unfold Place at hp; split_ifs at hp
    · exact hp.2
    · exact hp.le
  have hds : (e.ds.insertIdx k q).length = e.ds.length + 1 := List.length_insertIdx_of_le_length hk q
  refine ⟨?_, ?_, ?_⟩
  · simp only [inserted]
    rw [hds, List.length_insertIdx_of_le_length, hl]
    unfold Place at hp
    split_ifs at hp ⊢ <;> omega
  · intro m hm
    refine hf0 m ?_
    simp only [inserted] at hm
    unfold Place at hp
    split_ifs at hp hm
    · rwa [List.getElem?_insertIdx_of_lt (by omega)] at hm
    · rwa [List.getElem?_insertIdx_of_lt (by omega)] at hm
  · intro m hm
    refine hf1 m ?_
    simp only [inserted] at hm
    rw [hds] at hm
    unfold Place at hp
    split_ifs at hp hm
    · rwa [List.getElem?_insertIdx_of_gt (by omega)] at hm
    · rwa [List.getElem?_insertIdx_of_gt (by omega)] at hm

/-- Far from the new point, nothing needs redoing. -/
theorem inserted_good {metro : Bool} {convex xl xr : ℝ} {e : Env} (hr : Rendered metro convex xl xr e) (k : ℕ) (onLeft : Bool) (hp : Place e k onLeft) (junk q : Pt) (i : ℕ) (hi : i ≤ e.ds.length + 1) (hf : i + 1 < k ∨ k + 2 < i) :
    Good metro convex xl xr (inserted e k onLeft junk q).ds (inserted e k onLeft junk q).ms i := by
  obtain ⟨hl, hr⟩ := hr
  have hk : k ≤ e.ds.length := by
    unfold Place at hp; split_ifs at hp
    · exact hp.2
    · exact hp.le
  rcases hf with h | h
  · obtain ⟨m, h1, h2⟩ := hr i (by omega)
    refine ⟨m, ?_, ?_⟩
    · simp only [inserted]
      rw [List.getElem?_insertIdx_of_lt (by split_ifs <;> omega)]
      exact h1
    · simp only [inserted]
      rw [meetAt_before metro convex _ e.ds k i q hk h]
      exact h2
  · obtain ⟨m, h1, h2⟩ := hr (i - 1) (by omega)
    refine ⟨m, ?_, ?_⟩
    · simp only [inserted]
      rw [List.getElem?_insertIdx_of_gt (by split_ifs <;> omega)]
      exact h1
    · simp only [inserted]
      rw [meetAt_after metro convex _ e.ds k i q hk h, if_neg (by omega)]
      rwa [if_neg (by omega)] at h2

/-- C153: after an update the other points are what `meet` makes of all the points on the log density. -/
theorem update_rendered {F : ℝ → ℝ} {metro : Bool} {convex xl xr : ℝ} {npoint : ℕ} {junk : Pt} {e r : Env} {k : ℕ} {onLeft : Bool} {x : ℝ} (hr : Rendered metro convex xl xr e) (hn : 1 ≤ e.ds.length) (hp : Place e k onLeft)
    (h : update F metro convex npoint junk e k onLeft x = some r) : Rendered metro convex xl xr r := by
  unfold update at h
  split_ifs at h with hfull
  · rw [← Option.some.inj h]; exact hr
  · generalize hq : (moved (leftX e k) (rightX e k) x, F (moved (leftX e k) (rightX e k) x)) = q at h
    have hk : k ≤ e.ds.length := by
      unfold Place at hp; split_ifs at hp
      · exact hp.2
      · exact hp.le
    have hds : (inserted e k onLeft junk q).ds.length = e.ds.length + 1 := List.length_insertIdx_of_le_length hk q
    obtain ⟨h1, h2, h3⟩ := refresh_good (by omega) (by omega) (inserted_bounds hr hn k onLeft hp junk q) h
    refine ⟨by rw [h1]; exact h2.1, fun i hi => ?_⟩
    rw [h1] at hi ⊢
    exact h3 i hi fun hf => inserted_good hr k onLeft hp junk q i (by omega) hf

end Apop.Arms
