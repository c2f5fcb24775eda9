import Verif.Arms.Law

/-! # C155: the law of a round of adaptive rejection sampling -/

namespace Apop.Arms

open Set MeasureTheory

/-- How many nodes are left of the piece found, apop_arms.c:192. -/
noncomputable def pickIdx (u : ℝ) : List (Pt × ℝ) → ℕ
  | _ :: l :: rest => if l.2 > u then pickIdx u (l :: rest) else rest.length
  | _ => 0

/-- The piece drawn, counted from the left: `p->pl` and `p->pr`, apop_arms.c:195-196. -/
noncomputable def pieceIdx (y0 v : ℝ) (ns : List Pt) : ℕ := match (cumul y0 0 ns).reverse.head? with | some q => pickIdx (v * q.2) (cumul y0 0 ns).reverse | none => 0

/-- A round of the loop of `apop_arms_draw` without Metropolis, apop_arms.c:93-114, for an envelope `e` and two uniform numbers: the point given out, or `none` if it is rejected. -/
noncomputable def plainRound (F : ℝ → ℝ) (e : Env) (v u : ℝ) : Option ℝ :=
  (invert (ymaxOf (nodes e.ms e.ds)) v (nodes e.ms e.ds)).bind fun w =>
    if testPlain F (ymaxOf (nodes e.ms e.ds)) (chord e ((pieceIdx (ymaxOf (nodes e.ms e.ds)) v (nodes e.ms e.ds) + 1) / 2)) w.2.2 (eyAt (ymaxOf (nodes e.ms e.ds)) w.1 w.2.1 w.2.2) u then some w.2.2 else none

/-- A round with Metropolis, the previous point being `xprev`; `u2` is the third uniform number. -/
noncomputable def metroRound (F : ℝ → ℝ) (e : Env) (xprev v u u2 : ℝ) : Option ℝ :=
  (invert (ymaxOf (nodes e.ms e.ds)) v (nodes e.ms e.ds)).bind fun w =>
    (testMetro F (ymaxOf (nodes e.ms e.ds)) (nodes e.ms e.ds) xprev (F xprev) w.2.2 (yAt (ymaxOf (nodes e.ms e.ds)) w.1 w.2.1 w.2.2) (eyAt (ymaxOf (nodes e.ms e.ds)) w.1 w.2.1 w.2.2) u u2).map Prod.fst

theorem pick_split (u : ℝ) (l q : Pt × ℝ) : ∀ M : List (Pt × ℝ), pick u M = some (l, q) → ∃ pre rest, M = pre ++ q :: l :: rest ∧ pickIdx u M = rest.length
  | [], h => by simp [pick] at h
  | [a], h => by simp [pick] at h
  | a :: b :: m, h => by
    rw [pick] at h
    split_ifs at h with hb
    · obtain ⟨pre, rest, e1, e2⟩ := pick_split u l q (b :: m) h
      exact ⟨a :: pre, rest, by rw [e1]; rfl, by rw [pickIdx, if_pos hb]; exact e2⟩
    · simp only [Option.some.injEq, Prod.mk.injEq] at h
      exact ⟨[], m, by rw [← h.1, ← h.2]; rfl, by rw [pickIdx, if_neg hb]⟩

theorem cumul_fst (y0 : ℝ) : ∀ (l : List Pt) (c : ℝ), (cumul y0 c l).map Prod.fst = l
  | [], c => by simp [cumul]
  | [a], c => by simp [cumul]
  | a :: b :: l, c => by rw [cumul, List.map_cons, cumul_fst y0 (b :: l)]

theorem invert_split {y0 v : ℝ} {ns : List Pt} {p q : Pt} {x : ℝ} (h : invert y0 v ns = some (p, q, x)) : ∃ pre post, ns = pre ++ p :: q :: post ∧ pre.length = pieceIdx y0 v ns := by
  unfold invert at h
  unfold pieceIdx
  cases hq : (cumul y0 0 ns).reverse.head? with
  | none => rw [hq] at h; simp at h
  | some z =>
    rw [hq, Option.bind_some, Option.map_eq_some_iff] at h
    obtain ⟨⟨a, b⟩, h1, h2⟩ := h
    obtain ⟨pre, rest, e1, e2⟩ := pick_split _ a b _ h1
    simp only [place, Prod.mk.injEq] at h2
    have e3 := congrArg List.reverse e1
    rw [List.reverse_reverse] at e3
    have e4 := cumul_fst y0 ns 0
    rw [e3] at e4
    refine ⟨rest.reverse.map Prod.fst, pre.reverse.map Prod.fst, ?_, ?_⟩
    · rw [← h2.1, ← h2.2.1]
      rw [← e4]
      simp
    · simp only
      rw [e2]; simp

/-- Every point between the first and the last node is in a piece. -/
theorem find_split : ∀ (l : List Pt) (a z : Pt), (a :: l).getLast? = some z → ∀ x, a.1 < x → x ≤ z.1 → ∃ (pre post : List Pt) (p q : Pt), a :: l = pre ++ p :: q :: post ∧ p.1 < x ∧ x ≤ q.1
  | [], a, z, hz, x, h1, h2 => by
    have : z = a := by simpa using hz.symm
    rw [this] at h2
    linarith
  | b :: l, a, z, hz, x, h1, h2 => by
    by_cases hb : b.1 < x
    · obtain ⟨pre, post, p, q, e1, e2, e3⟩ := find_split l b z (by rwa [List.getLast?_cons_cons] at hz) x hb h2
      exact ⟨a :: pre, post, p, q, by rw [e1]; rfl, e2, e3⟩
    · exact ⟨[], l, a, b, rfl, h1, not_lt.mp hb⟩

theorem chain_mem {ns : List Pt} {a z : Pt} (hc : ns.IsChain (fun a b => a.1 ≤ b.1)) (ha : ns.head? = some a) (hz : ns.getLast? = some z) (d : Pt) (hd : d ∈ ns) : a.1 ≤ d.1 ∧ d.1 ≤ z.1 := by
  have : Std.Refl (fun a b : Pt => a.1 ≤ b.1) := ⟨fun a => le_refl _⟩
  have : IsTrans Pt (fun a b => a.1 ≤ b.1) := ⟨fun _ _ _ h1 h2 => le_trans h1 h2⟩
  have hp := List.isChain_iff_pairwise.mp hc
  obtain ⟨i, hi, rfl⟩ := List.getElem_of_mem hd
  rw [List.head?_eq_getElem?] at ha
  rw [List.getLast?_eq_getElem?] at hz
  obtain ⟨h0, rfl⟩ := List.getElem?_eq_some_iff.mp ha
  obtain ⟨h1, rfl⟩ := List.getElem?_eq_some_iff.mp hz
  rw [List.pairwise_iff_getElem] at hp
  constructor
  · rcases Nat.eq_zero_or_pos i with rfl | h
    · exact le_refl _
    · exact hp 0 i h0 hi h
  · rcases Nat.lt_or_ge i (ns.length - 1) with h | h
    · exact hp i _ hi h1 h
    · have : i = ns.length - 1 := by omega
      subst this
      exact le_refl _

open Classical in
/-- The x of the draw for a uniform number. -/
noncomputable def drawX (e : Env) (xl v : ℝ) : ℝ := if v ∈ Ico (0 : ℝ) 1 then ((invert (ymaxOf (nodes e.ms e.ds)) v (nodes e.ms e.ds)).elim xl fun w => w.2.2) else xl

/-- No piece of positive length is flat. -/
def NoFlat (e : Env) : Prop := ∀ pre post p q, nodes e.ms e.ds = pre ++ p :: q :: post → p.1 < q.1 → ¬ Flat (ymaxOf (nodes e.ms e.ds)) p q

theorem inverts {F : ℝ → ℝ} {metro : Bool} {convex xl xr : ℝ} {npoint : ℕ} {e : Env} (h : Reach F metro convex xl xr npoint e) (hn : ∀ d ∈ nodes e.ms e.ds, Near (ymaxOf (nodes e.ms e.ds)) d) (hf : NoFlat e) :
    Inverts xl xr (envelope (ymaxOf (nodes e.ms e.ds)) (nodes e.ms e.ds)) (drawX e xl) := by
  have hs := C153_reach h
  obtain ⟨c1, ⟨a, c2, c3⟩, ⟨z, c4, c5⟩, c6⟩ := sound_nodes hs
  obtain ⟨l, hl⟩ : ∃ l, nodes e.ms e.ds = a :: l := by
    cases hns : nodes e.ms e.ds with
    | nil => rw [hns] at c2; simp at c2
    | cons b l => rw [hns] at c2; have : b = a := by simpa using c2
                  exact ⟨l, by rw [this]⟩
  refine ⟨c6, env_meas _ _, ?_, ?_, ?_, ?_, ?_⟩
  · intro x hx
    obtain ⟨pre, post, p, q, e1, e2, e3⟩ := find_split l a z (by rw [← hl]; exact c4) x (by rw [c3]; exact hx.1) (by rw [c5]; exact hx.2)
    rw [← hl] at e1
    have := envelope_piece (ymaxOf (nodes e.ms e.ds)) pre p q post (by rw [← e1]; exact c1) x e2 e3
    rw [← e1] at this
    rw [this.1]
    exact (C154_height _ p q (hn p (by rw [e1]; simp)) (hn q (by rw [e1]; simp)) (by linarith) x e2.le e3).2.1
  · intro t ht
    rw [← c3, hl]
    exact env_integrable _ l a (by rw [← hl]; exact c1) t (by rw [c3]; exact ht.1)
  · intro v
    unfold drawX
    split_ifs with hv
    · obtain ⟨k, onLeft, p, q, x, i1, -, -, -, i4, i5, -, -⟩ := C154_draw h hn v hv.1 hv.2
      obtain ⟨pre, post, e1, -⟩ := invert_split i1
      rw [i1]
      have hp := (chain_mem c1 c2 c4 p (by rw [e1]; simp)).1
      have hq := (chain_mem c1 c2 c4 q (by rw [e1]; simp)).2
      simp only [Option.elim_some]
      constructor <;> linarith
    · exact ⟨le_refl _, c6.le⟩
  · intro v hv
    obtain ⟨k, onLeft, p, q, x, i1, ⟨p', q', j1, j2, j3⟩, i2, i3, i4, i5, -, i7⟩ := C154_draw h hn v hv.1 hv.2
    obtain ⟨pre, post, e1, -⟩ := invert_split i1
    rw [i2] at j1
    rw [i3] at j2
    have hpq : p.1 < q.1 := by rw [Option.some.inj j1, Option.some.inj j2]; exact j3
    unfold drawX
    rw [if_pos hv, i1]
    simp only [Option.elim_some]
    exact i7 (hf pre post p q e1 hpq)
  · intro v hv
    unfold drawX
    rw [if_neg hv]

/-- What is needed of a round: a draw strictly within a piece, and its heights. -/
theorem round_piece {F : ℝ → ℝ} {metro : Bool} {convex xl xr : ℝ} {npoint : ℕ} {e : Env} (h : Reach F metro convex xl xr npoint e) (hn : ∀ d ∈ nodes e.ms e.ds, Near (ymaxOf (nodes e.ms e.ds)) d) (v : ℝ) (hv : v ∈ Ico (0 : ℝ) 1)
    (hN : drawX e xl v ∉ {x | ∃ d ∈ nodes e.ms e.ds, d.1 = x}) : ∃ pre post p q, invert (ymaxOf (nodes e.ms e.ds)) v (nodes e.ms e.ds) = some (p, q, drawX e xl v) ∧ nodes e.ms e.ds = pre ++ p :: q :: post ∧ pre.length = pieceIdx (ymaxOf (nodes e.ms e.ds)) v (nodes e.ms e.ds) ∧
      p.1 < drawX e xl v ∧ drawX e xl v ≤ q.1 ∧ drawX e xl v ∈ Icc xl xr ∧ Near (ymaxOf (nodes e.ms e.ds)) p ∧ Near (ymaxOf (nodes e.ms e.ds)) q ∧
      eyAt (ymaxOf (nodes e.ms e.ds)) p q (drawX e xl v) = envelope (ymaxOf (nodes e.ms e.ds)) (nodes e.ms e.ds) (drawX e xl v) := by
  have hs := C153_reach h
  obtain ⟨c1, ⟨a, c2, c3⟩, ⟨z, c4, c5⟩, c6⟩ := sound_nodes hs
  obtain ⟨k, onLeft, p, q, x, i1, -, -, -, i4, i5, -, -⟩ := C154_draw h hn v hv.1 hv.2
  obtain ⟨pre, post, e1, e2⟩ := invert_split i1
  have hX : drawX e xl v = x := by unfold drawX; rw [if_pos hv, i1]; rfl
  rw [hX] at hN ⊢
  have hpx : p.1 < x := by
    rcases i4.eq_or_lt with h | h
    · exact absurd ⟨p, by rw [e1]; simp, h⟩ hN
    · exact h
  have hnp := hn p (by rw [e1]; simp)
  have hnq := hn q (by rw [e1]; simp)
  have hE := envelope_piece (ymaxOf (nodes e.ms e.ds)) pre p q post (by rw [← e1]; exact c1) x hpx i5
  rw [← e1] at hE
  refine ⟨pre, post, p, q, i1, e1, e2, hpx, i5, ?_, hnp, hnq, ?_⟩
  · have hp := (chain_mem c1 c2 c4 p (by rw [e1]; simp)).1
    have hq := (chain_mem c1 c2 c4 q (by rw [e1]; simp)).2
    constructor <;> linarith
  · rw [hE.1]
    exact (C154_height _ p q hnp hnq (by linarith) x hpx.le i5).1

theorem knots_null (ns : List Pt) : volume {x : ℝ | ∃ d ∈ ns, d.1 = x} = 0 := by
  have : {x : ℝ | ∃ d ∈ ns, d.1 = x} = ((ns.map Prod.fst).toFinset : Set ℝ) := by
    ext x
    simp
  rw [this]
  exact Finset.measure_zero _ _

/-- The density, shifted, under the envelope. -/
theorem density_le {F : ℝ → ℝ} {metro : Bool} {convex xl xr : ℝ} {npoint : ℕ} (hF : ConcaveOn ℝ (Icc xl xr) F) {e : Env} (h : Reach F metro convex xl xr npoint e) (x : ℝ) (hx : x ∈ Ioc xl xr) (y0 : ℝ) :
    0 ≤ Real.exp (F x - y0 + 50) ∧ Real.exp (F x - y0 + 50) ≤ envelope y0 (nodes e.ms e.ds) x := by
  have hs := C153_reach h
  obtain ⟨c1, ⟨a, c2, c3⟩, ⟨z, c4, c5⟩, c6⟩ := sound_nodes hs
  obtain ⟨l, hl⟩ : ∃ l, nodes e.ms e.ds = a :: l := by
    cases hns : nodes e.ms e.ds with
    | nil => rw [hns] at c2; simp at c2
    | cons b l => rw [hns] at c2; have : b = a := by simpa using c2
                  exact ⟨l, by rw [this]⟩
  obtain ⟨pre, post, p, q, e1, e2, e3⟩ := find_split l a z (by rw [← hl]; exact c4) x (by rw [c3]; exact hx.1) (by rw [c5]; exact hx.2)
  rw [← hl] at e1
  have := envelope_piece y0 pre p q post (by rw [← e1]; exact c1) x e2 e3
  rw [← e1] at this
  rw [this.1]
  exact ⟨(Real.exp_pos _).le, (below_dens hF h pre post p q e1 x e2 e3 ⟨hx.1.le, hx.2⟩ y0).2⟩

theorem factor {F : ℝ → ℝ} (hm : Measurable F) (y0 T : ℝ) (S : Set ℝ) : ∫⁻ x in S, ENNReal.ofReal (Real.exp (F x - y0 + 50) / T) = ENNReal.ofReal (Real.exp (50 - y0) / T) * ∫⁻ x in S, ENNReal.ofReal (Real.exp (F x)) := by
  have hme : Measurable fun x => ENNReal.ofReal (Real.exp (F x)) := ENNReal.measurable_ofReal.comp (Real.measurable_exp.comp hm)
  rw [← lintegral_const_mul _ hme]
  apply lintegral_congr
  intro x
  rw [← ENNReal.ofReal_mul' (Real.exp_pos _).le]
  congr 1
  have : F x - y0 + 50 = (50 - y0) + F x := by ring
  rw [this, Real.exp_add]
  ring

/-- C155: one round of adaptive rejection sampling, for a log-concave density and any envelope that can come up (no node more than 100 below the highest, no flat piece), with independent uniform numbers: the probability that a point of B is given out is proportional to the integral of the density over B between the bounds, the factor not depending on B. So, whatever the envelope, a point given out follows the density between the bounds. -/
theorem C155_law {F : ℝ → ℝ} {metro : Bool} {convex xl xr : ℝ} {npoint : ℕ} (hm : Measurable F) (hF : ConcaveOn ℝ (Icc xl xr) F) {e : Env} (h : Reach F metro convex xl xr npoint e) (hn : ∀ d ∈ nodes e.ms e.ds, Near (ymaxOf (nodes e.ms e.ds)) d) (hf : NoFlat e) :
    ∃ κ : ENNReal, κ ≠ 0 ∧ κ ≠ ⊤ ∧ ∀ B : Set ℝ, MeasurableSet B →
      volume {w : ℝ × ℝ | w.1 ∈ Ico (0 : ℝ) 1 ∧ w.2 ∈ Ico (0 : ℝ) 1 ∧ ∃ x ∈ B, plainRound F e w.1 w.2 = some x} = κ * ∫⁻ x in Ioc xl xr ∩ B, ENNReal.ofReal (Real.exp (F x)) := by
  have hI := inverts h hn hf
  refine ⟨ENNReal.ofReal (Real.exp (50 - ymaxOf (nodes e.ms e.ds)) / ∫ t in xl..xr, envelope (ymaxOf (nodes e.ms e.ds)) (nodes e.ms e.ds) t), ?_, ENNReal.ofReal_ne_top, fun B hB => ?_⟩
  · exact (ENNReal.ofReal_pos.mpr (div_pos (Real.exp_pos _) hI.T_pos)).ne'
  rw [← factor hm, ← hI.accept (fun x => Real.exp (F x - ymaxOf (nodes e.ms e.ds) + 50)) (by fun_prop) (fun x hx => density_le hF h x hx _) _ (knots_null (nodes e.ms e.ds)) {w | plainRound F e w.1 w.2 ≠ none} ?_ B hB]
  · congr 1
    ext w
    simp only [mem_ofPred_eq]
    constructor
    · rintro ⟨h1, h2, x, h3, h4⟩
      refine ⟨h1, h2, ?_, by rw [h4]; simp⟩
      have : drawX e xl w.1 = x := by
        unfold plainRound at h4
        unfold drawX
        rw [if_pos h1]
        cases hi : invert (ymaxOf (nodes e.ms e.ds)) w.1 (nodes e.ms e.ds) with
        | none => rw [hi] at h4; simp at h4
        | some t =>
          rw [hi, Option.bind_some] at h4
          split_ifs at h4
          simpa using h4
      rw [this]; exact h3
    · rintro ⟨h1, h2, h3, h4⟩
      refine ⟨h1, h2, drawX e xl w.1, h3, ?_⟩
      unfold plainRound at h4 ⊢
      unfold drawX
      rw [if_pos h1]
      cases hi : invert (ymaxOf (nodes e.ms e.ds)) w.1 (nodes e.ms e.ds) with
      | none => rw [hi] at h4; simp at h4
      | some t =>
        rw [hi] at h4
        simp only [Option.bind_some] at h4 ⊢
        split_ifs at h4 ⊢
        · rfl
        · exact absurd rfl h4
  · intro v u hv hu hN
    obtain ⟨pre, post, p, q, i1, i2, i3, i4, i5, i6, i7, i8, i9⟩ := round_piece h hn v hv hN
    obtain ⟨k, onLeft, j1, j2, j3⟩ := piece_of_split (C153_reach h).rendered pre post p q i2
    have hT := C155_plain hF h k onLeft p q j1 j2 (drawX e xl v) i4.le i5 (ymaxOf (nodes e.ms e.ds)) (eyAt (ymaxOf (nodes e.ms e.ds)) p q (drawX e xl v)) u
    rw [j3, i3, i9] at hT
    have hR : plainRound F e v u = if testPlain F (ymaxOf (nodes e.ms e.ds)) (chord e ((pieceIdx (ymaxOf (nodes e.ms e.ds)) v (nodes e.ms e.ds) + 1) / 2)) (drawX e xl v) (envelope (ymaxOf (nodes e.ms e.ds)) (nodes e.ms e.ds) (drawX e xl v)) u then some (drawX e xl v) else none := by
      unfold plainRound
      rw [i1, Option.bind_some]
      simp only [i9]
    constructor
    · intro hlt
      change plainRound F e v u ≠ none
      rw [hR, hT.1 hlt]
      simp
    · intro hlt
      change ¬ plainRound F e v u ≠ none
      rw [hR, hT.2 hlt]
      simp

/-- C155: the same with Metropolis steps, the default, whatever the previous point and the third number. -/
theorem C155_law_metro {F : ℝ → ℝ} {metro : Bool} {convex xl xr : ℝ} {npoint : ℕ} (hm : Measurable F) (hF : ConcaveOn ℝ (Icc xl xr) F) {e : Env} (h : Reach F metro convex xl xr npoint e) (hn : ∀ d ∈ nodes e.ms e.ds, Near (ymaxOf (nodes e.ms e.ds)) d) (hf : NoFlat e)
    (xprev : ℝ) (hx : xprev ∈ Icc xl xr) (u2 : ℝ) (hu2 : u2 ≤ 1) :
    ∃ κ : ENNReal, κ ≠ 0 ∧ κ ≠ ⊤ ∧ ∀ B : Set ℝ, MeasurableSet B →
      volume {w : ℝ × ℝ | w.1 ∈ Ico (0 : ℝ) 1 ∧ w.2 ∈ Ico (0 : ℝ) 1 ∧ ∃ x ∈ B, metroRound F e xprev w.1 w.2 u2 = some x} = κ * ∫⁻ x in Ioc xl xr ∩ B, ENNReal.ofReal (Real.exp (F x)) := by
  have hI := inverts h hn hf
  refine ⟨ENNReal.ofReal (Real.exp (50 - ymaxOf (nodes e.ms e.ds)) / ∫ t in xl..xr, envelope (ymaxOf (nodes e.ms e.ds)) (nodes e.ms e.ds) t), ?_, ENNReal.ofReal_ne_top, fun B hB => ?_⟩
  · exact (ENNReal.ofReal_pos.mpr (div_pos (Real.exp_pos _) hI.T_pos)).ne'
  have hR : ∀ v u, v ∈ Ico (0 : ℝ) 1 → drawX e xl v ∉ {x | ∃ d ∈ nodes e.ms e.ds, d.1 = x} → metroRound F e xprev v u u2 = if u * envelope (ymaxOf (nodes e.ms e.ds)) (nodes e.ms e.ds) (drawX e xl v) < Real.exp (F (drawX e xl v) - ymaxOf (nodes e.ms e.ds) + 50) then some (drawX e xl v) else none := by
    intro v u hv hN
    obtain ⟨pre, post, p, q, i1, i2, i3, i4, i5, i6, i7, i8, i9⟩ := round_piece h hn v hv hN
    have hM := C155_moves hF h pre post p q i2 (drawX e xl v) i4 i5 i6 (ymaxOf (nodes e.ms e.ds)) ⟨i7, i8⟩ xprev hx u u2 hu2
    unfold metroRound
    rw [i1, Option.bind_some]
    simp only
    rw [hM, i9]
    split_ifs <;> rfl
  have hav := hI.avoid _ (knots_null (nodes e.ms e.ds))
  rw [← factor hm, ← hI.accept (fun x => Real.exp (F x - ymaxOf (nodes e.ms e.ds) + 50)) (by fun_prop) (fun x hx => density_le hF h x hx _) _ (knots_null (nodes e.ms e.ds)) {w | metroRound F e xprev w.1 w.2 u2 ≠ none} ?_ B hB]
  · apply measure_congr
    have hav' : ∀ᵐ v : ℝ, v ∈ Ico (0 : ℝ) 1 → drawX e xl v ∉ {x | ∃ d ∈ nodes e.ms e.ds, d.1 = x} := by
      rw [ae_restrict_iff' measurableSet_Ico] at hav
      filter_upwards [hav] with v hv h1
      exact (hv h1).1
    rw [Measure.volume_eq_prod]
    filter_upwards [Measure.quasiMeasurePreserving_fst.ae hav'] with w hw
    apply propext
    change (w.1 ∈ Ico (0 : ℝ) 1 ∧ w.2 ∈ Ico (0 : ℝ) 1 ∧ ∃ x ∈ B, metroRound F e xprev w.1 w.2 u2 = some x) ↔ (w.1 ∈ Ico (0 : ℝ) 1 ∧ w.2 ∈ Ico (0 : ℝ) 1 ∧ drawX e xl w.1 ∈ B ∧ metroRound F e xprev w.1 w.2 u2 ≠ none)
    refine and_congr_right fun h1 => and_congr_right fun _ => ?_
    rw [hR w.1 w.2 h1 (hw h1)]
    split_ifs
    · simp
    · simp
  · intro v u hv hu hN
    constructor
    · intro hlt
      change metroRound F e xprev v u u2 ≠ none
      rw [hR v u hv hN, if_pos hlt]
      simp
    · intro hlt
      change ¬ metroRound F e xprev v u u2 ≠ none
      rw [hR v u hv hN, if_neg (by linarith)]
      simp

end Apop.Arms
