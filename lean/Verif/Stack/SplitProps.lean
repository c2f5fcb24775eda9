import Verif.Stack.Props

/-! # C13: splitting, and stacking the pieces back -/

namespace Apop.Stack
variable {α : Type}

/-- Every part that is present has more than `k` rows (`text`: at least `k`). -/
def RowsBeyond (p : Page α) (k : Nat) : Prop :=
  (∀ v, p.vector = some v → k < v.length) ∧ (∀ m, p.matrix = some m → k < m.size1 ∧ m.cols ≠ 0) ∧
  (∀ w, p.weights = some w → k < w.length) ∧ (p.text ≠ [] → k ≤ p.textsize.1)

theorem subvec_head (v : List α) (k : Nat) (hk : 0 < k) (h : k < v.length) :
    subvec v 0 k = .ok (v.take k) := by
  have : k ≠ 0 ∧ 0 + k ≤ v.length := by omega
  rw [subvec, if_pos this]; simp

theorem subvec_tail (v : List α) (k : Nat) (h : k < v.length) :
    subvec v k (v.length - k) = .ok (v.drop k) := by
  have : v.length - k ≠ 0 ∧ k + (v.length - k) ≤ v.length := by omega
  rw [subvec, if_pos this, List.take_of_length_le (by simp)]

theorem optM_ok {β γ : Type} (x : Option β) (f : β → Res γ) (g : β → γ)
    (h : ∀ b, x = some b → f b = .ok (g b)) : optM x f = .ok (x.map g) := by
  cases x with
  | none => rfl
  | some b => simp [optM, h b rfl]

theorem splitText_eq (k c : Nat) (src : List (List CStr)) (hs : ∀ r ∈ src, r.length = c) :
    ∀ (i : Nat) (g0 g1 : List (List CStr)),
    (∀ r ∈ g0, r.length = c) → (∀ r ∈ g1, r.length = c) →
    (i ≤ k → i + src.length ≤ k → i + src.length ≤ g0.length) →
    (i ≤ k → k ≤ i + src.length → k ≤ g0.length ∧ i + src.length - k ≤ g1.length) →
    (k < i → i - k + src.length ≤ g1.length) →
    splitText k i src g0 g1 = .ok
      (g0.take i ++ src.take (k - i) ++ g0.drop (i + (src.take (k - i)).length),
       g1.take (i - k) ++ src.drop (k - i) ++ g1.drop (i - k + (src.drop (k - i)).length)) := by
  induction src with
  | nil => intro i g0 g1 _ _ _ _ _; simp [splitText]
  | cons r rs ih =>
    intro i g0 g1 h0 h1 a1 a2 a3
    have hr := hs r (by simp)
    simp only [List.length_cons] at a1 a2 a3
    by_cases hik : i ≥ k
    · have hlt : i - k < g1.length := by
        by_cases h : k < i
        · have := a3 h; omega
        · have := a2 (by omega) (by omega); omega
      have e := Page.copyTextRow_eq g1 (i - k) g1[i-k] r 0 (by simp [hlt])
        (by rw [h1 _ (List.getElem_mem hlt), hr]; omega)
      have hfull : List.take 0 g1[i-k] ++ r ++ List.drop (0 + r.length) g1[i-k] = r := by
        rw [List.drop_eq_nil_of_le (by rw [h1 _ (List.getElem_mem hlt), hr]; omega)]; simp
      rw [hfull] at e
      simp only [splitText, hik, if_true, e, Res.bind_ok]
      have hmem : ∀ x ∈ g1.set (i - k) r, x.length = c := by
        intro x hx
        rcases List.mem_or_eq_of_mem_set hx with h | h
        · exact h1 x h
        · rw [h, hr]
      rw [ih (fun x hx => hs x (by simp [hx])) (i + 1) g0 _ h0 hmem (by omega) (by omega)
        (by intro _; simp only [List.length_set]
            by_cases h : k < i
            · have := a3 h; omega
            · have := a2 (by omega) (by omega); omega)]
      have hk0 : k - i = 0 := by omega
      have hk1 : k - (i + 1) = 0 := by omega
      simp only [hk0, hk1, List.take_zero, List.append_nil, List.length_nil, Nat.add_zero,
        List.take_append_drop, List.drop_zero]
      rw [show i + 1 - k = i - k + 1 by omega, List.take_add_one, List.take_set_of_le (Nat.le_refl _),
        List.getElem?_set_self hlt, List.drop_set_of_lt (by omega)]
      simp only [Option.toList_some, List.append_assoc, List.cons_append, List.nil_append,
        List.length_cons]
      rw [show i - k + 1 + rs.length = i - k + (rs.length + 1) by omega]
    · have hlt : i < g0.length := by
        by_cases h : i + (rs.length + 1) ≤ k
        · have := a1 (by omega) h; omega
        · have := a2 (by omega) (by omega); omega
      have e := Page.copyTextRow_eq g0 i g0[i] r 0 (by simp [hlt])
        (by rw [h0 _ (List.getElem_mem hlt), hr]; omega)
      have hfull : List.take 0 g0[i] ++ r ++ List.drop (0 + r.length) g0[i] = r := by
        rw [List.drop_eq_nil_of_le (by rw [h0 _ (List.getElem_mem hlt), hr]; omega)]; simp
      rw [hfull] at e
      simp only [splitText, hik, if_false, e, Res.bind_ok]
      have hmem : ∀ x ∈ g0.set i r, x.length = c := by
        intro x hx
        rcases List.mem_or_eq_of_mem_set hx with h | h
        · exact h0 x h
        · rw [h, hr]
      rw [ih (fun x hx => hs x (by simp [hx])) (i + 1) _ g1 hmem h1
        (by intro _ h; simp only [List.length_set]; have := a1 (by omega) (by omega); omega)
        (by intro _ h; simp only [List.length_set]; have := a2 (by omega) (by omega); omega)
        (by omega)]
      have hk : k - i = (k - (i + 1)) + 1 := by omega
      rw [hk]
      simp only [List.take_succ_cons, List.drop_succ_cons, List.length_cons]
      rw [List.take_add_one, List.take_set_of_le (Nat.le_refl _), List.getElem?_set_self hlt,
        List.drop_set_of_lt (by omega)]
      simp only [Option.toList_some, List.append_assoc, List.cons_append, List.nil_append]
      rw [show i + 1 + (rs.take (k - (i+1))).length = i + ((rs.take (k - (i+1))).length + 1) by omega,
        show i + 1 - k = i - k by omega]

theorem namesRows (n : Names) (rows : List CStr) :
    let m := ((Names.alloc.stack (some n) (some 'v') none).addAll rows 'r').stack (some n) (some 'c') none
    m.row = rows ∧ m.col = n.col ∧ m.vector = n.vector ∧ m.text = [] ∧ m.title = none ∧ m.Good := by
  intro m
  let base := Names.alloc.stack (some n) (some 'v') none
  have hb : base = { Names.alloc with vector := n.vector } := by
    cases hv : n.vector <;> simp [base, Names.stack, Names.stackTypes, Names.add, hv, Names.alloc]
  obtain ⟨a1, a2, a3, a4, a5⟩ := Names.addAll_of_row (n := base) (src := rows)
  have hm : m = (base.addAll rows 'r').addAll n.col 'c' := by
    simp [m, base, Names.stack, Names.stackTypes]
  obtain ⟨b1, b2, b3, b4, b5⟩ := Names.addAll_of_col (n := base.addAll rows 'r') (src := n.col) (t := 'c')
    (by decide) (by decide) (by decide) (by decide)
  rw [hm]
  refine ⟨by rw [b2, a1, hb]; rfl, by rw [b1, a2, hb]; rfl, by rw [b4, a4, hb], by rw [b3, a3, hb]; rfl,
    by rw [b5, a5, hb]; rfl, ?_⟩
  exact Names.good_addAll (Names.good_addAll (by rw [hb]; exact Names.good_alloc) _ _) _ _

/-- **C13** (row split). For a well-formed page with names, `0 < k`, every numeric part having more
than k rows and the text, if any, at least k: the first output has the first k rows of every part, the
second the others; the row names are divided at k, the column and vector names go to both. -/
theorem C13_split_rows (junk : α) (p : Page α) (ps : List (Page α)) (k : Nat) (n : Names) (hp : p.WF)
    (hn : p.names = some n) (hk : 0 < k) (hb : RowsBeyond p k) :
    ∃ o0 o1 n0 n1, splitRows junk (p :: ps) k true = .ok ([o0], [o1]) ∧
      o0.vector = p.vector.map (List.take k) ∧ o1.vector = p.vector.map (List.drop k) ∧
      o0.weights = p.weights.map (List.take k) ∧ o1.weights = p.weights.map (List.drop k) ∧
      o0.matrix = p.matrix.map (fun m => ⟨m.rows.take k, m.cols⟩) ∧
      o1.matrix = p.matrix.map (fun m => ⟨m.rows.drop k, m.cols⟩) ∧
      o0.text = p.text.take k ∧ o1.text = p.text.drop k ∧
      o0.names = some n0 ∧ o1.names = some n1 ∧
      n0.row = n.row.take k ∧ n1.row = n.row.drop k ∧ n0.col = n.col ∧ n1.col = n.col ∧
      n0.vector = n.vector ∧ n1.vector = n.vector ∧
      o0.error = none ∧ o1.error = none ∧ o0.WF ∧ o1.WF ∧ n0.Good := by
  obtain ⟨hv, hm, hw, ht⟩ := hb
  obtain ⟨hpm, hpt, hpz⟩ := hp
  have e1 : optM p.vector (fun v => subvec v 0 k) = .ok (p.vector.map (List.take k)) :=
    optM_ok _ _ _ (fun b h => subvec_head b k hk (hv b h))
  have e2 : optM p.vector (fun v => subvec v k (v.length - k)) = .ok (p.vector.map (List.drop k)) :=
    optM_ok _ _ _ (fun b h => subvec_tail b k (hv b h))
  have e3 : optM p.weights (fun v => subvec v 0 k) = .ok (p.weights.map (List.take k)) :=
    optM_ok _ _ _ (fun b h => subvec_head b k hk (hw b h))
  have e4 : optM p.weights (fun v => subvec v k (v.length - k)) = .ok (p.weights.map (List.drop k)) :=
    optM_ok _ _ _ (fun b h => subvec_tail b k (hw b h))
  have e5 : optM p.matrix (fun m => subRows m 0 k) =
      .ok (p.matrix.map (fun m => ⟨m.rows.take k, m.cols⟩)) := by
    apply optM_ok
    intro b h
    obtain ⟨h1, h2⟩ := hm b h
    have : k ≠ 0 ∧ b.cols ≠ 0 ∧ 0 + k ≤ b.size1 := by omega
    rw [subRows, if_pos this]; simp
  have e6 : optM p.matrix (fun m => subRows m k (m.size1 - k)) =
      .ok (p.matrix.map (fun m => ⟨m.rows.drop k, m.cols⟩)) := by
    apply optM_ok
    intro b h
    obtain ⟨h1, h2⟩ := hm b h
    have : b.size1 - k ≠ 0 ∧ b.cols ≠ 0 ∧ k + (b.size1 - k) ≤ b.size1 := by omega
    rw [subRows, if_pos this, List.take_of_length_le (by simp [Mat.size1])]
  obtain ⟨a1, a2, a3, a4, a5, a6⟩ := namesRows n (n.row.take k)
  obtain ⟨b1, b2, b3, b4, b5, b6⟩ := namesRows n (n.row.drop k)
  generalize hN0 : ((Names.alloc.stack (some n) (some 'v') none).addAll (n.row.take k) 'r').stack
    (some n) (some 'c') none = N0 at a1 a2 a3 a4 a5 a6
  generalize hN1 : ((Names.alloc.stack (some n) (some 'v') none).addAll (n.row.drop k) 'r').stack
    (some n) (some 'c') none = N1 at b1 b2 b3 b4 b5 b6
  let p0 : Page α := ⟨p.vector.map (List.take k), p.matrix.map (fun m => ⟨m.rows.take k, m.cols⟩), some N0,
    [], (0, 0), p.weights.map (List.take k), none⟩
  let p1 : Page α := ⟨p.vector.map (List.drop k), p.matrix.map (fun m => ⟨m.rows.drop k, m.cols⟩), some N1,
    [], (0, 0), p.weights.map (List.drop k), none⟩
  have hw0 : ∀ m, p0.matrix = some m → m.WF := by
    intro m h
    simp only [p0, Option.map_eq_some_iff] at h
    obtain ⟨a, ha, rfl⟩ := h
    intro r hr; exact hpm a ha r (List.mem_of_mem_take hr)
  have hw1 : ∀ m, p1.matrix = some m → m.WF := by
    intro m h
    simp only [p1, Option.map_eq_some_iff] at h
    obtain ⟨a, ha, rfl⟩ := h
    intro r hr; exact hpm a ha r (List.mem_of_mem_drop hr)
  have hk1 : ¬ ((k : Int) ≤ 0) := by omega
  have hk2 : pastRows p k = false := by
    cases h : p.matrix with
    | none => simp [pastRows, h]
    | some m => have := (hm m h).1; simp [pastRows, h]; omega
  -- the text
  have htext : ∃ o0 o1 n0 n1, splitTextRows p p0 p1 k = .ok (o0, o1) ∧
      o0 = { p0 with text := p.text.take k, textsize := o0.textsize, names := some n0 } ∧
      o1 = { p1 with text := p.text.drop k, textsize := o1.textsize, names := some n1 } ∧
      n0.row = N0.row ∧ n0.col = N0.col ∧ n0.vector = N0.vector ∧
      n1.row = N1.row ∧ n1.col = N1.col ∧ n1.vector = N1.vector ∧ n0.Good ∧
      o0.TextWF ∧ o1.TextWF ∧ (o0.textsize.1 = 0 ↔ o0.textsize.2 = 0) ∧
      (o1.textsize.1 = 0 ↔ o1.textsize.2 = 0) := by
    by_cases hz : p.textsize.1 ≠ 0 ∧ p.textsize.2 ≠ 0
    · have hne : p.text ≠ [] := by
        intro h; exact hz.1 ((text_nil_iff hpt).1 h)
      have hkt := ht hne
      have g0 : growText [] k p.textsize.2 = List.replicate k (List.replicate p.textsize.2 []) := by
        simp [growText]
      have g1 : (if p.textsize.1 > k then growText [] (p.textsize.1 - k) p.textsize.2 else []) =
          List.replicate (p.textsize.1 - k) (List.replicate p.textsize.2 []) := by
        split
        · simp [growText]
        · rw [show p.textsize.1 - k = 0 by omega]; rfl
      have hsplit := splitText_eq k p.textsize.2 p.text hpt.2 0
        (List.replicate k (List.replicate p.textsize.2 []))
        (List.replicate (p.textsize.1 - k) (List.replicate p.textsize.2 []))
        (by intro r hr; simp at hr; simp [hr.2]) (by intro r hr; simp at hr; simp [hr.2])
        (by intro _ h; simpa using h) (by intro _ h; simp [hpt.1])
        (by omega)
      have hlk : (p.text.take k).length = k := by rw [List.length_take, hpt.1]; omega
      have hld : (p.text.drop k).length = p.textsize.1 - k := by rw [List.length_drop, hpt.1]
      simp only [Nat.sub_zero, List.take_zero, List.nil_append, Nat.zero_add, Nat.zero_sub, hlk, hld] at hsplit
      rw [List.drop_eq_nil_of_le (as := List.replicate k _) (by simp),
        List.drop_eq_nil_of_le (as := List.replicate (p.textsize.1 - k) _) (by simp),
        List.append_nil, List.append_nil] at hsplit
      obtain ⟨t1, t2, t3, t4, t5⟩ := Names.addAll_of_text (n := N0) (src := n.text)
      obtain ⟨s1, s2, s3, s4, s5⟩ := Names.addAll_of_text (n := N1) (src := n.text)
      have st0 : N0.stack (some n) (some 't') none = N0.addAll n.text 't' := by
        simp [Names.stack, Names.stackTypes]
      have st1 : N1.stack (some n) (some 't') none = N1.addAll n.text 't' := by
        simp [Names.stack, Names.stackTypes]
      refine ⟨⟨p0.vector, p0.matrix, some (if p.textsize.1 > k then N0.addAll n.text 't' else N0),
          p.text.take k, (k, p.textsize.2), p0.weights, none⟩,
        ⟨p1.vector, p1.matrix, some (N1.addAll n.text 't'), p.text.drop k,
          (if p.textsize.1 > k then (p.textsize.1 - k, p.textsize.2) else (0, 0)), p1.weights, none⟩,
        if p.textsize.1 > k then N0.addAll n.text 't' else N0, N1.addAll n.text 't', ?_, rfl, rfl,
        ?_, ?_, ?_, s3, s2, s4, ?_, ?_, ?_, ?_, ?_⟩
      · unfold splitTextRows
        simp only
        rw [if_pos hz, g0, g1, hsplit]
        by_cases hgt : p.textsize.1 > k <;>
          simp [hgt, p0, p1, hn, st0, st1]
      · split
        · exact t3
        · rfl
      · split
        · exact t2
        · rfl
      · split
        · exact t4
        · rfl
      · split
        · exact Names.good_addAll a6 _ _
        · exact a6
      · exact ⟨hlk, fun r hr => hpt.2 r (List.mem_of_mem_take hr)⟩
      · by_cases hgt : p.textsize.1 > k
        · refine ⟨by simp only [hgt, if_true, hld], fun r hr => ?_⟩
          simp only [hgt, if_true]
          exact hpt.2 r (List.mem_of_mem_drop hr)
        · have : p.text.drop k = [] := List.drop_eq_nil_of_le (by rw [hpt.1]; omega)
          refine ⟨by simp [hgt, this], fun r hr => ?_⟩
          rw [this] at hr; simp at hr
      · simp only; omega
      · split <;> simp <;> omega
    · have hz1 : p.textsize.1 = 0 := by
        by_cases h : p.textsize.1 = 0
        · exact h
        · have h2 : p.textsize.2 = 0 := by
            by_cases h2 : p.textsize.2 = 0
            · exact h2
            · exact absurd ⟨h, h2⟩ hz
          exact hpz.2 h2
      have hnil := (text_nil_iff hpt).2 hz1
      refine ⟨p0, p1, N0, N1, by simp [splitTextRows, hz], ?_, ?_, rfl, rfl, rfl, rfl, rfl, rfl, a6, ?_, ?_,
        Iff.rfl, Iff.rfl⟩
      · simp [p0, hnil]
      · simp [p1, hnil]
      · simp [p0, Page.TextWF]
      · simp [p1, Page.TextWF]
  obtain ⟨o0, o1, n0, n1, hs, ho0, ho1, r0, c0, v0, r1, c1, v1, hgood, tw0, tw1, tz0, tz1⟩ := htext
  refine ⟨o0, o1, n0, n1, ?_, by rw [ho0], by rw [ho1], by rw [ho0], by rw [ho1], by rw [ho0],
    by rw [ho1], by rw [ho0], by rw [ho1], by rw [ho0], by rw [ho1], by rw [r0, a1], by rw [r1, b1],
    by rw [c0, a2], by rw [c1, b2], by rw [v0, a3], by rw [v1, b3], by rw [ho0], by rw [ho1],
    ⟨by rw [ho0]; exact hw0, tw0, tz0⟩, ⟨by rw [ho1]; exact hw1, tw1, tz1⟩, hgood⟩
  unfold splitRows
  simp only [hk1, if_false, hk2, Bool.false_eq_true, Int.toNat_natCast, e1, e2, e3, e4, e5, e6,
    Res.bind_ok, hn, if_true]
  simp only [hN0, hN1]
  rw [show (⟨p.vector.map (List.take k), p.matrix.map (fun m => ⟨m.rows.take k, m.cols⟩), some N0,
    [], (0, 0), p.weights.map (List.take k), none⟩ : Page α) = p0 from rfl,
    show (⟨p.vector.map (List.drop k), p.matrix.map (fun m => ⟨m.rows.drop k, m.cols⟩), some N1,
    [], (0, 0), p.weights.map (List.drop k), none⟩ : Page α) = p1 from rfl, hs]
  rfl

/-- **C13** (inverse, rows). Stacking the two pieces of a row split gives back the vector, matrix,
weights, text and row names. -/
theorem C13_stack_split_rows (junk : α) (p : Page α) (ps : List (Page α)) (k : Nat) (n : Names) (hp : p.WF)
    (hn : p.names = some n) (hk : 0 < k) (hb : RowsBeyond p k)
    (hnum : p.vector ≠ none ∨ p.matrix ≠ none) :
    ∃ o0 o1 r m, splitRows junk (p :: ps) k true = .ok ([o0], [o1]) ∧
      stack junk [o0] [o1] 'r' false = .ok ([r], [o0]) ∧
      r.vector = p.vector ∧ r.matrix = p.matrix ∧ r.weights = p.weights ∧ r.text = p.text ∧
      r.names = some m ∧ m.row = n.row ∧ m.col = n.col := by
  obtain ⟨o0, o1, n0, n1, h, v0, v1, w0, w1, m0, m1, t0, t1, e0, e1, r0, r1, c0, c1, -, -, z0, z1,
    wf0, wf1, g0⟩ := C13_split_rows junk p ps k n hp hn hk hb
  have hc : RowCompat o0 o1 := by
    refine ⟨?_, ?_⟩
    · intro a b ha hb'
      rw [m0] at ha; rw [m1] at hb'
      cases hm : p.matrix with
      | none => rw [hm] at ha; simp at ha
      | some x =>
        rw [hm] at ha hb'
        simp only [Option.map_some, Option.some.injEq] at ha hb'
        subst ha; subst hb'; rfl
    · intro ht0 ht1
      have l0 : ∃ r ∈ o0.text, r ∈ p.text := by
        obtain ⟨r, l, hrl⟩ := List.exists_cons_of_ne_nil ht0
        exact ⟨r, by rw [hrl]; simp, by
          have : r ∈ o0.text := by rw [hrl]; simp
          rw [t0] at this; exact List.mem_of_mem_take this⟩
      have l1 : ∃ r ∈ o1.text, r ∈ p.text := by
        obtain ⟨r, l, hrl⟩ := List.exists_cons_of_ne_nil ht1
        exact ⟨r, by rw [hrl]; simp, by
          have : r ∈ o1.text := by rw [hrl]; simp
          rw [t1] at this; exact List.mem_of_mem_drop this⟩
      obtain ⟨x, hx0, hxp⟩ := l0
      obtain ⟨y, hy1, hyp⟩ := l1
      rw [← wf0.2.1.2 x hx0, ← wf1.2.1.2 y hy1, hp.2.1.2 x hxp, hp.2.1.2 y hyp]
  obtain ⟨r, m, hst, a1, a2, a3, a4, -, -, -, -, a5, a6, a7, -⟩ :=
    C12_stack_rows junk o0 o1 [] [] false n0 wf0 wf1 z0 e0 g0 hc
  refine ⟨o0, o1, r, m, h, by simpa using hst, ?_, ?_, ?_, ?_, a5, ?_, by rw [a7, c0]⟩
  · rw [a1, v0, v1]; cases p.vector <;> simp [over]
  · rw [a3, m0, m1]; cases p.matrix <;> simp [matOver]
  · rw [a2, w0, w1]; cases p.weights <;> simp [over]
  · rw [a4, t0, t1, List.take_append_drop]
  · rw [a6, e1]
    simp only [namesOf, Option.map_some, Option.getD_some, r0, r1]
    have hrows : numRows o0 = k := by
      unfold numRows
      rw [v0, m0]
      cases hv : p.vector with
      | none =>
        cases hm : p.matrix with
        | none => exact absurd hm (by rcases hnum with h | h; exact absurd hv h; exact h)
        | some x => have := (hb.2.1 x hm).1; simp only [Mat.size1] at this; simp [Mat.size1]; omega
      | some v =>
        have h1 := hb.1 v hv
        cases hm : p.matrix with
        | none => simp; omega
        | some x => have := (hb.2.1 x hm).1; simp only [Mat.size1] at this; simp [Mat.size1]; omega
    rw [hrows]
    unfold joinNames
    split
    · rename_i hd
      have : n.row.length ≤ k := by
        have := congrArg List.length hd
        simp at this; omega
      rw [List.take_of_length_le this]
    · rename_i hd
      have : k < n.row.length := by
        by_cases h : k < n.row.length
        · exact h
        · exact absurd (List.drop_eq_nil_of_le (by omega)) hd
      rw [List.length_take, Nat.min_eq_left (by omega), Nat.sub_self]
      simp

/-- **C13** (ends, rows): a split at or before row 0 puts a copy of everything in the second output, a
split at or after the last matrix row in the first; the other output is NULL. -/
theorem C13_split_rows_ends (junk : α) (p : Page α) (ps : List (Page α)) (k : Int) (t : Bool)
    (hwf : ∀ q ∈ p :: ps, q.WF) (he : ∀ q ∈ p :: ps, q.error = none) :
    (k ≤ 0 → splitRows junk (p :: ps) k t = .ok ([], (p :: ps).map Page.copyOf)) ∧
    (∀ m, p.matrix = some m → 0 < k → (m.size1 : Int) ≤ k →
      splitRows junk (p :: ps) k t = .ok ((p :: ps).map Page.copyOf, [])) := by
  have hcopy := Page.copy_eq junk (p :: ps) hwf he
  refine ⟨?_, ?_⟩
  · intro h; simp only [splitRows, h, if_true, hcopy, Res.bind_ok]
  · intro m hm h1 h2
    have : ¬ k ≤ 0 := by omega
    simp only [splitRows, this, if_false, pastRows, hm, Option.any_some, h2, decide_true, if_true, hcopy, Res.bind_ok]

/-- **C13** (finding): for a data set with a vector but no matrix, a split point at or beyond the end
is not caught: GSL is asked for a subvector out of range (documented result: a copy and NULL). -/
theorem C13_vector_only_overrun (junk : α) (p : Page α) (ps : List (Page α)) (k : Nat) (t : Bool)
    (v : List α) (hv : p.vector = some v) (hm : p.matrix = none) (hk : v.length ≤ k) (h0 : 0 < k) :
    splitRows junk (p :: ps) k t = .ub := by
  have hk1 : ¬ ((k : Int) ≤ 0) := by omega
  have : ¬ (v.length - k ≠ 0 ∧ k + (v.length - k) ≤ v.length) := by omega
  simp only [splitRows, hk1, if_false, pastRows, hm, Option.any_none, Bool.false_eq_true, Int.toNat_natCast, hv, optM]
  cases subvec v 0 k with
  | ub => rfl
  | ok x => simp only [Res.bind_ok, subvec, this, if_false]; rfl

/-! ### columns -/

/-- **C13** (column split and its inverse). For 0 < k < columns: the first output has the first k
columns and the vector, the second the other columns, both the weights and row names; column names are
divided at k. Stacking the pieces by columns gives back vector, matrix and weights. -/
theorem C13_split_cols (junk : α) (p : Page α) (ps : List (Page α)) (k : Nat) (n : Names) (m : Mat α)
    (hp : p.WF) (hn : p.names = some n) (hm : p.matrix = some m) (hk : 0 < k) (hkm : k < m.cols)
    (hr : m.size1 ≠ 0) :
    ∃ o0 o1 n0 n1 r, splitCols junk (p :: ps) k = .ok ([o0], [o1]) ∧
      o0.vector = p.vector ∧ o1.vector = none ∧ o0.weights = p.weights ∧ o1.weights = p.weights ∧
      o0.matrix = some ⟨m.rows.map (List.take k), k⟩ ∧
      o1.matrix = some ⟨m.rows.map (List.drop k), m.cols - k⟩ ∧
      o0.names = some n0 ∧ o1.names = some n1 ∧ n0.row = n.row ∧ n1.row = n.row ∧
      n0.col = n.col.take k ∧ n1.col = n.col.drop k ∧
      stack junk [o0] [o1] 'c' false = .ok ([r], [o0]) ∧
      r.vector = p.vector ∧ r.matrix = some m ∧ r.weights = p.weights := by
  have hk1 : ¬ ((k : Int) ≤ -1) := by omega
  have hk2 : ¬ ((m.cols : Int) ≤ (k : Int)) := by omega
  have hk3 : ¬ ((k : Int) = 0) := by omega
  have s0 : subCols m 0 k = .ok ⟨m.rows.map (List.take k), k⟩ := by
    have : k ≠ 0 ∧ m.size1 ≠ 0 ∧ 0 + k ≤ m.cols := by omega
    rw [subCols, if_pos this]
    rfl
  have s1 : subCols m k (m.cols - k) = .ok ⟨m.rows.map (List.drop k), m.cols - k⟩ := by
    have : m.cols - k ≠ 0 ∧ m.size1 ≠ 0 ∧ k + (m.cols - k) ≤ m.cols := by omega
    rw [subCols, if_pos this]
    congr 2
    apply List.map_congr_left
    intro r hr'
    have := hp.1 m hm r hr'
    rw [List.take_of_length_le (by simp; omega)]
  let nv := if p.vector.isSome then Names.alloc.stack (some n) (some 'v') none else Names.alloc
  have hnv : nv.row = [] ∧ nv.col = [] := by
    simp only [nv]
    cases p.vector <;> cases hnv : n.vector <;>
      simp [Names.stack, Names.stackTypes, Names.add, Names.alloc, hnv]
  obtain ⟨a1, a2, -⟩ := Names.addAll_of_row (n := nv) (src := n.row)
  obtain ⟨b1, b2, -⟩ := Names.addAll_of_col (n := nv.addAll n.row 'r') (src := n.col.take k) (t := 'c')
    (by decide) (by decide) (by decide) (by decide)
  obtain ⟨c1, c2, -⟩ := Names.addAll_of_row (n := Names.alloc) (src := n.row)
  obtain ⟨d1, d2, -⟩ := Names.addAll_of_col (n := Names.alloc.addAll n.row 'r') (src := n.col.drop k)
    (t := 'c') (by decide) (by decide) (by decide) (by decide)
  let o0 : Page α := ⟨p.vector, some ⟨m.rows.map (List.take k), k⟩,
    some ((nv.addAll n.row 'r').addAll (n.col.take k) 'c'), [], (0, 0), p.weights, none⟩
  let o1 : Page α := ⟨none, some ⟨m.rows.map (List.drop k), m.cols - k⟩,
    some ((Names.alloc.addAll n.row 'r').addAll (n.col.drop k) 'c'), [], (0, 0), p.weights, none⟩
  have hmwf := hp.1 m hm
  have wf0 : o0.WF := by
    refine ⟨?_, ⟨rfl, by simp [o0]⟩, Iff.rfl⟩
    intro x hx
    simp only [o0, Option.some.injEq] at hx
    subst hx
    intro r hr'
    simp only [List.mem_map] at hr'
    obtain ⟨y, hy, rfl⟩ := hr'
    have := hmwf y hy
    simp only [List.length_take]; omega
  have wf1 : o1.WF := by
    refine ⟨?_, ⟨rfl, by simp [o1]⟩, Iff.rfl⟩
    intro x hx
    simp only [o1, Option.some.injEq] at hx
    subst hx
    intro r hr'
    simp only [List.mem_map] at hr'
    obtain ⟨y, hy, rfl⟩ := hr'
    have := hmwf y hy
    simp only [List.length_drop]; omega
  have hc : ColCompat o0 o1 := by
    refine ⟨?_, by simp [o1], by simp [o1], by simp [o0]⟩
    intro a b ha hb
    simp only [o0, Option.some.injEq] at ha
    simp only [o1, Option.some.injEq] at hb
    subst ha; subst hb
    simp [Mat.size1]
  obtain ⟨r, hs, r1, r2, r3, -⟩ := C12_stack_cols junk o0 o1 [] [] false _ _ wf0 wf1 rfl rfl rfl hc
  refine ⟨o0, o1, _, _, r, ?_, rfl, rfl, rfl, rfl, rfl, rfl, rfl, rfl, ?_, ?_, ?_, ?_, by simpa using hs,
    ?_, ?_, by rw [r2]⟩
  · unfold splitCols
    simp only [hk1, if_false, pastCols, hm, Option.any_some, hk2, decide_false, Bool.false_eq_true, hk3, Int.toNat_natCast, s0, s1,
      Res.bind_ok, hn]
    simp only [o0, o1, nv, Names.stack, Names.stackTypes, Option.getD_some, Option.getD_none]
    simp only [show ¬ ('r' : Char) = 'v' by decide, if_false, if_true]
  · rw [b2, a1, hnv.1]; rfl
  · rw [d2, c1]; rfl
  · rw [b1, a2, hnv.2]; rfl
  · rw [d1, c2]; rfl
  · rw [r1]; simp [o1, o0]
  · rw [r3]
    have : newColumns o0 o1 = o1.matrix := by
      simp [newColumns, o1, matBeside]
    rw [this]
    simp only [o0, o1, matBeside]
    congr 1
    obtain ⟨rows, cols⟩ := m
    simp only [Mat.mk.injEq]
    refine ⟨?_, by simp only at hkm; omega⟩
    apply List.ext_getElem (by simp)
    intro i h1 h2
    simp

/-- **C13** (column 0): the vector alone in the first output, the matrix in the second. -/
theorem C13_split_cols_zero (junk : α) (p : Page α) (ps : List (Page α))
    (hm : ∀ m, p.matrix = some m → m.cols ≠ 0) :
    ∃ o0 o1, splitCols junk (p :: ps) 0 = .ok ([o0], [o1]) ∧ o0.vector = p.vector ∧ o0.matrix = none ∧
      o1.vector = none ∧ o1.matrix = p.matrix ∧ o0.weights = p.weights ∧ o1.weights = p.weights := by
  have h : pastCols p 0 = false := by
    cases hx : p.matrix with
    | none => simp [pastCols, hx]
    | some m => have := hm m hx; simp [pastCols, hx]; omega
  unfold splitCols
  simp only [show ¬ ((0 : Int) ≤ -1) by decide, if_false, h, Bool.false_eq_true, if_true]
  exact ⟨_, _, rfl, rfl, rfl, rfl, rfl, rfl, rfl⟩

/-- **C13** (finding): a column split drops the text of the data set; both outputs have none, so the
text cannot be recovered by stacking. -/
theorem C13_split_cols_loses_text (junk : α) (p : Page α) (ps : List (Page α)) (k : Nat) (n : Names)
    (m : Mat α) (hp : p.WF) (hn : p.names = some n) (hm : p.matrix = some m) (hk : 0 < k)
    (hkm : k < m.cols) (hr : m.size1 ≠ 0) :
    ∃ o0 o1, splitCols junk (p :: ps) k = .ok ([o0], [o1]) ∧ o0.text = [] ∧ o1.text = [] := by
  have hk1 : ¬ ((k : Int) ≤ -1) := by omega
  have hk2 : ¬ ((m.cols : Int) ≤ (k : Int)) := by omega
  have hk3 : ¬ ((k : Int) = 0) := by omega
  have c0 : k ≠ 0 ∧ m.size1 ≠ 0 ∧ 0 + k ≤ m.cols := by omega
  have c1 : m.cols - k ≠ 0 ∧ m.size1 ≠ 0 ∧ k + (m.cols - k) ≤ m.cols := by omega
  unfold splitCols
  simp only [hk1, if_false, pastCols, hm, Option.any_some, hk2, decide_false, Bool.false_eq_true, hk3, Int.toNat_natCast, hn,
    subCols, if_pos c0, if_pos c1, Res.bind_ok]
  exact ⟨_, _, rfl, rfl, rfl⟩

/-- Non-vacuity: the two-row demo page can be split after its first row. -/
example : RowsBeyond Page.demoPage 1 := by
  refine ⟨?_, ?_, ?_, ?_⟩
  · intro v h; cases h; decide
  · intro v h; cases h; decide
  · intro v h; cases h; decide
  · intro _; decide
example : (splitRows 0 [Page.demoPage] 1 true).map (fun r => (r.1.map Page.vector, r.2.map Page.text)) =
    .ok ([some [1]], [[str "b"] :: []]) := by decide +kernel

end Apop.Stack
