import Verif.Pmf.Cache

/-! # C204: setting up mixtures and drawing from them

The components are models of which a draw's numbers, or failure, and the generator's state after are known. -/

namespace Apop.MixDraw
open Apop.Pmf
variable {G V : Type}

/-! ## The model -/

/-- A component: its `dsize`, and a draw with the generator in a state (`none`: it returned an error). -/
structure Comp (G V : Type) where
  dsize : ℤ
  draw : G → Option (List V) × G

/-- A mixture: `dsize`, and in its settings the models, the weights and the PMF over the models once made. -/
structure Mix (G V : Type) where
  dsize : ℤ
  comps : List (Comp G V)
  weights : List ℝ
  cmf : Option PmfModel

/-- The loop over the sizes, transform/apop_mixture.c:133. -/
def sizeLoop : ℤ → List ℤ → ℤ
  | d, [] => d
  | d, x :: xs => if d > -99 then sizeLoop (if x ≠ d then -100 else d) xs else d

/-- `apop_model_mixture_base`, transform/apop_mixture.c:120-139. `apop_mixture`'s own `dsize` is zero, :336-338. With no models, `inlist[0]` is NULL and read from. -/
noncomputable def setUp (comps : List (Comp G V)) : Res (Mix G V) :=
  match comps.map Comp.dsize with
  | [] => .ub
  | d :: ds =>
    let d := sizeLoop d ds
    .ok ⟨if d > -99 then d else 0, comps, List.replicate comps.length (1 / (comps.length : ℝ)), none⟩

/-- The `dsize` after `mixture_prep`, transform/apop_mixture.c:170. -/
def prepSize (m : Mix G V) : ℤ :=
  match m.comps with
  | [] => m.dsize
  | c :: _ => if m.dsize = 0 then c.dsize else m.dsize

/-- The PMF over the models, made if there is none, transform/apop_mixture.c:281-286. -/
def pmfOf (m : Mix G V) : PmfModel :=
  match m.cmf with
  | some p => p
  | none => ⟨m.weights, none⟩

/-- What a draw returns: the numbers (`none`: the error return), the mixture and the generator after it. -/
structure Drawn (G V : Type) where
  out : Option (List V)
  mix : Mix G V
  gen : G

/-- The draw from the component found, transform/apop_mixture.c:290. -/
def drawComp (m : Mix G V) (p : PmfModel) (g : G) : Found → Res (Drawn G V)
  | .row i => (rd m.comps i).bind fun c => .ok ⟨(c.draw g).1, { m with cmf := some p }, (c.draw g).2⟩
  | _ => .ub

/-- `mixture_draw`, transform/apop_mixture.c:278-291; `unif` is `gsl_rng_uniform`. When the PMF fails no number is used and, the weights' sums staying as they are, it stays failed. -/
noncomputable def draw (unif : G → ℝ × G) (m : Mix G V) (g : G) : Res (Drawn G V) :=
  match drawFrom (pmfOf m) (unif g).1 with
  | .ub => .ub
  | .ok none => .ok ⟨none, { m with cmf := some (pmfOf m) }, g⟩
  | .ok (some (f, p)) => drawComp m p (unif g).2 f

/-- `Apop_settings_set(m, apop_mixture, weights, w)` with weights of one's own: the PMF, if made, is not touched. -/
def setWeights (m : Mix G V) (w : List ℝ) : Mix G V := { m with weights := w }

/-- Draws one after the other, until one fails. -/
noncomputable def draws (unif : G → ℝ × G) : ℕ → Mix G V → G → Res (List (List V) × Mix G V × G)
  | 0, m, g => .ok ([], m, g)
  | n + 1, m, g => (draw unif m g).bind fun r =>
    match r.out with
    | none => .ok ([], r.mix, r.gen)
    | some x => (draws unif n r.mix r.gen).bind fun s => .ok (x :: s.1, s.2)

/-! ## Specification -/

/-- The component that weights give to a uniform number: the shares of those up to it reach the number, the shares of those before it do not. (A number of exactly zero is the first's.) -/
def Chosen (ws : List ℝ) (u : ℝ) (i : ℕ) : Prop := i < ws.length ∧ u ≤ cumShare ws (i + 1) ∧ (u = 0 → i = 0) ∧ (0 < u → cumShare ws i < u)

/-- Weights as they should be: as many as components, none negative, not all zero. -/
structure Weighted (m : Mix G V) : Prop where
  len : m.weights.length = m.comps.length
  nonneg : ∀ w ∈ m.weights, 0 ≤ w
  pos : 0 < m.weights.sum

/-- No draw was made since the weights were set to others: there is no PMF, or it is of these weights. -/
def Current (m : Mix G V) : Prop := ∀ p, m.cmf = some p → p.weights = m.weights ∧ ∀ c, p.cmf = some c → setupCmf m.weights = .ok (some c)

/-- The ideal history: each number picks a component by the weights, which then draws. -/
inductive Ideal (unif : G → ℝ × G) (comps : List (Comp G V)) (ws : List ℝ) : List (List V) → G → G → Prop
  | nil (g : G) : Ideal unif comps ws [] g g
  | cons {g g' : G} {i : ℕ} {c : Comp G V} {x : List V} {xs : List (List V)} : Chosen ws (unif g).1 i → comps[i]? = some c → (c.draw (unif g).2).1 = some x → Ideal unif comps ws xs (c.draw (unif g).2).2 g' →
      Ideal unif comps ws (x :: xs) g g'

/-! ## Proofs -/

theorem pmfOf_current {m : Mix G V} (h : Current m) : (pmfOf m).weights = m.weights ∧ ∀ c, (pmfOf m).cmf = some c → setupCmf m.weights = .ok (some c) := by
  unfold pmfOf
  cases hc : m.cmf with
  | none => exact ⟨rfl, by simp⟩
  | some p => exact h p hc

/-- **C204 (one draw).** With the weights current, a draw takes one uniform number, and then is the draw of the component that the weights give to it; the mixture has its components and weights as before and the weights are current. -/
theorem C204_draw (unif : G → ℝ × G) (hu : ∀ g, 0 ≤ (unif g).1 ∧ (unif g).1 < 1) (m : Mix G V) (hw : Weighted m) (hc : Current m) (g : G) :
    ∃ i c m', Chosen m.weights (unif g).1 i ∧ m.comps[i]? = some c ∧ draw unif m g = .ok ⟨(c.draw (unif g).2).1, m', (c.draw (unif g).2).2⟩ ∧
      m'.comps = m.comps ∧ m'.weights = m.weights ∧ m'.dsize = m.dsize ∧ Current m' ∧ m'.cmf ≠ none := by
  obtain ⟨c, i, h1, h2, h3, h4, h5, h6⟩ := C63_row m.weights hw.nonneg hw.pos (unif g).1 (hu g).1 (hu g).2
  have hne : m.weights ≠ [] := by intro h0; have := hw.pos; rw [h0] at this; simp at this
  obtain ⟨c', hc', hlen, -⟩ := (C63_cmf m.weights hne).2 hw.pos.ne'
  rw [h1] at hc'
  cases hc'
  obtain ⟨hp1, hp2⟩ := pmfOf_current hc
  have hcm : cmfOf (pmfOf m) = .ok (some c) := by
    unfold cmfOf
    cases hq : (pmfOf m).cmf with
    | none => simp only [hp1, h1]
    | some c2 =>
      have := hp2 c2 hq
      rw [h1] at this
      cases this
      rfl
  have hi : i < m.comps.length := hw.len ▸ h3
  have hd := drawFrom_eq (m := pmfOf m) (u := (unif g).1) (i := i) hcm (by rw [hp1]; exact hlen) (by rw [hp1]; exact h2)
  refine ⟨i, m.comps[i], { m with cmf := some { pmfOf m with cmf := some c } }, ⟨h3, h4, h5, fun h => (h6 h).1⟩, List.getElem?_eq_getElem hi, ?_, rfl, rfl, rfl, ?_, by simp⟩
  · unfold draw
    rw [hd]
    simp only [drawComp, rd_of_lt hi, Res.bind]
  · intro p hp
    cases hp
    refine ⟨hp1, fun c2 hc2 => ?_⟩
    cases hc2
    exact h1

/-- **C204 (any number of draws).** Drawing any number of times without changing the weights is the ideal history, up to a component's failure. -/
theorem C204_draws (unif : G → ℝ × G) (hu : ∀ g, 0 ≤ (unif g).1 ∧ (unif g).1 < 1) : ∀ (n : ℕ) (m : Mix G V), Weighted m → Current m → (∀ c ∈ m.comps, ∀ g, (c.draw g).1 ≠ none) → ∀ g : G,
    ∃ xs m' g', draws unif n m g = .ok (xs, m', g') ∧ xs.length = n ∧ Ideal unif m.comps m.weights xs g g'
  | 0, m, _, _, _, g => ⟨[], m, g, rfl, rfl, .nil g⟩
  | n + 1, m, hw, hc, hs, g => by
    obtain ⟨i, c, m', h1, h2, h3, h4, h5, _, h7, _⟩ := C204_draw unif hu m hw hc g
    have hx := hs c (List.mem_of_getElem? h2) (unif g).2
    obtain ⟨x, hx⟩ := Option.ne_none_iff_exists'.1 hx
    obtain ⟨xs, m'', g', e, el, ei⟩ := C204_draws unif hu n m' ⟨by rw [h4, h5]; exact hw.len, by rw [h5]; exact hw.nonneg, by rw [h5]; exact hw.pos⟩ h7 (by rw [h4]; exact hs) (c.draw (unif g).2).2
    refine ⟨x :: xs, m'', g', ?_, by simp [el], ?_⟩
    · simp [draws, h3, hx, Res.bind, e]
    · rw [h4, h5] at ei
      exact .cons h1 h2 hx ei

/-- **C204 (odds).** The numbers that pick a component are an interval as long as its share of the weights, and no number above zero picks two. -/
theorem C204_odds (ws : List ℝ) (hw : ∀ w ∈ ws, 0 ≤ w) (hs : 0 < ws.sum) (i : ℕ) (hi : i < ws.length) :
    (∀ u, 0 < u → (Chosen ws u i ↔ cumShare ws i < u ∧ u ≤ cumShare ws (i + 1))) ∧ cumShare ws (i + 1) - cumShare ws i = ws.getD i 0 / ws.sum ∧ 0 ≤ cumShare ws i ∧ cumShare ws (i + 1) ≤ 1 := by
  obtain ⟨c, _, _, h2, h3, h4⟩ := C63_interval ws hw hs i hi
  refine ⟨fun u hu => ⟨fun h => ⟨h.2.2.2 hu, h.2.1⟩, fun h => ⟨hi, h.2, fun h0 => absurd h0 hu.ne', fun _ => h.1⟩⟩, h2, h3, h4⟩

/-- **C204 (bad weights).** Weights that sum to zero: the error return, each time, and nothing drawn. -/
theorem C204_zero (unif : G → ℝ × G) (m : Mix G V) (hne : m.weights ≠ []) (h0 : m.weights.sum = 0) (hc : m.cmf = none) (g : G) :
    ∃ m', draw unif m g = .ok ⟨none, m', g⟩ ∧ ∀ g', ∃ m'', draw unif m' g' = .ok ⟨none, m'', g'⟩ := by
  have hs := (C63_cmf m.weights hne).1 h0
  have hd : ∀ u, drawFrom ⟨m.weights, none⟩ u = .ok none := by intro u; simp only [drawFrom, cmfOf, hs]
  refine ⟨{ m with cmf := some ⟨m.weights, none⟩ }, ?_, fun g' => ⟨{ m with cmf := some ⟨m.weights, none⟩ }, ?_⟩⟩
  · simp only [draw, pmfOf, hc, hd]
  · simp only [draw, pmfOf, hd]

theorem sizeLoop_same (d : ℤ) (hd : d > -99) : ∀ l : List ℤ, (∀ x ∈ l, x = d) → sizeLoop d l = d
  | [], _ => rfl
  | x :: xs, h => by
    have hx : x = d := h x (by simp)
    subst hx
    simp only [sizeLoop, if_pos hd, ne_eq, not_true, if_false]
    exact sizeLoop_same x hd xs fun y hy => h y (by simp [hy])

theorem sizeLoop_stop (l : List ℤ) : sizeLoop (-100) l = -100 := by
  cases l <;> simp [sizeLoop]

theorem sizeLoop_differ (d : ℤ) (hd : d > -99) : ∀ l : List ℤ, (∃ x ∈ l, x ≠ d) → sizeLoop d l = -100
  | [], h => by simp at h
  | x :: xs, h => by
    by_cases hx : x = d
    · subst hx
      simp only [sizeLoop, if_pos hd, ne_eq, not_true, if_false]
      refine sizeLoop_differ x hd xs ?_
      obtain ⟨y, hy, hne⟩ := h
      rcases List.mem_cons.1 hy with rfl | hy
      · exact absurd rfl hne
      · exact ⟨y, hy, hne⟩
    · simp only [sizeLoop, if_pos hd, ne_eq, hx, not_false_eq_true, if_true]
      exact sizeLoop_stop xs

/-- **C204 (setting up).** A mixture of one or more models, with sizes above -99, is set up with the models in order, equal weights that sum to one, no draws made, and the models' common draw size if they have one, zero if not. -/
theorem C204_setup (comps : List (Comp G V)) (hne : comps ≠ []) (hd : ∀ c ∈ comps, c.dsize > -99) :
    ∃ m, setUp comps = .ok m ∧ m.comps = comps ∧ Weighted m ∧ Current m ∧ (∀ w ∈ m.weights, w = 1 / comps.length) ∧ m.weights.sum = 1 ∧
      (∀ d, (∀ c ∈ comps, c.dsize = d) → m.dsize = d ∧ prepSize m = d) ∧ ((∃ c ∈ comps, ∃ c' ∈ comps, c.dsize ≠ c'.dsize) → m.dsize = 0) := by
  obtain ⟨c0, cs, rfl⟩ := List.exists_cons_of_ne_nil hne
  have hn : (0 : ℝ) < ((c0 :: cs).length : ℝ) := by simp; positivity
  refine ⟨_, rfl, rfl, ⟨by simp, ?_, ?_⟩, by simp [Current], ?_, ?_, ?_, ?_⟩
  · intro w hw
    rw [List.eq_of_mem_replicate hw]
    positivity
  · simp only [List.sum_replicate, nsmul_eq_mul]
    positivity
  · intro w hw
    exact List.eq_of_mem_replicate hw
  · simp only [List.sum_replicate, nsmul_eq_mul]
    field_simp
  · intro d h
    have h0 : c0.dsize = d := h c0 (by simp)
    have hgt : d > -99 := h0 ▸ hd c0 (by simp)
    have hl : sizeLoop d (cs.map Comp.dsize) = d := by
      exact sizeLoop_same d hgt _ (by
        intro x hx
        obtain ⟨c, hc, rfl⟩ := List.mem_map.1 hx
        exact h c (by simp [hc]))
    simp only [h0, hl, if_pos hgt, prepSize, ite_self, and_self]
  · rintro ⟨c, hc, c', hc', hne⟩
    have hl : sizeLoop c0.dsize (cs.map Comp.dsize) = -100 := by
      refine sizeLoop_differ _ (hd c0 (by simp)) _ ?_
      by_contra hall
      have hall' : ∀ x ∈ c0 :: cs, x.dsize = c0.dsize := by
        intro x hx
        rcases List.mem_cons.1 hx with rfl | hx
        · rfl
        · by_contra h
          exact hall ⟨x.dsize, List.mem_map.2 ⟨x, hx, rfl⟩, h⟩
      exact hne ((hall' c hc).trans (hall' c' hc').symm)
    simp only [hl]
    norm_num

/-- With a PMF made, other weights change nothing. -/
theorem draw_setWeights (unif : G → ℝ × G) (m : Mix G V) (h : m.cmf ≠ none) (ws : List ℝ) (g : G) :
    draw unif (setWeights m ws) g = (draw unif m g).map fun r => { r with mix := setWeights r.mix ws } := by
  obtain ⟨p, hp⟩ := Option.ne_none_iff_exists'.1 h
  have hpm : pmfOf (setWeights m ws) = pmfOf m := by simp [pmfOf, setWeights, hp]
  unfold draw
  rw [hpm]
  rcases drawFrom (pmfOf m) (unif g).1 with (_ | ⟨f, p'⟩) | _
  · rfl
  · cases f with
    | row j =>
      simp only [drawComp, rd]
      have : (setWeights m ws).comps = m.comps := rfl
      rw [this]
      cases m.comps[j]? <;> rfl
    | ub => rfl
    | running => rfl
  · rfl

/-- **C204 (refuted: changing the weights).** Once a draw has been made, setting other weights has no effect on the draws: they go by the weights before. -/
theorem C204_stale_refuted (unif : G → ℝ × G) (hu : ∀ g, 0 ≤ (unif g).1 ∧ (unif g).1 < 1) (m : Mix G V) (hw : Weighted m) (hc : m.cmf = none) (ws : List ℝ) (g : G) :
    ∃ r, draw unif m g = .ok r ∧ ∀ g', ∃ i c m', Chosen m.weights (unif g').1 i ∧ m.comps[i]? = some c ∧ draw unif (setWeights r.mix ws) g' = .ok ⟨(c.draw (unif g').2).1, m', (c.draw (unif g').2).2⟩ := by
  obtain ⟨i, c, m', h1, h2, h3, h4, h5, h6, h7, h8⟩ := C204_draw unif hu m hw (by simp [Current, hc]) g
  refine ⟨_, h3, fun g' => ?_⟩
  obtain ⟨i', c', m'', k1, k2, k3, -⟩ := C204_draw unif hu m' ⟨by rw [h4, h5]; exact hw.len, by rw [h5]; exact hw.nonneg, by rw [h5]; exact hw.pos⟩ h7 g'
  refine ⟨i', c', setWeights m'' ws, by rw [← h5]; exact k1, by rw [← h4]; exact k2, ?_⟩
  rw [draw_setWeights unif m' h8, k3]
  rfl

/-- **C204 (refuted: the draw size).** The documentation: the draw size is set iff the models have the same. After the prep it is the first model's although the second's is another, and a draw writes more numbers than that. -/
theorem C204_dsize_refuted : ∃ (comps : List (Comp Unit ℝ)) (m : Mix Unit ℝ) (r : Drawn Unit ℝ), setUp comps = .ok m ∧ (comps.map Comp.dsize) = [1, 2] ∧ (∀ c ∈ comps, ∃ x, (c.draw ()).1 = some x ∧ (x.length : ℤ) = c.dsize) ∧ prepSize m = 1 ∧
    draw (fun _ => (3 / 4, ())) m () = .ok r ∧ ∃ x, r.out = some x ∧ (x.length : ℤ) > prepSize m := by
  let comps : List (Comp Unit ℝ) := [⟨1, fun _ => (some [0], ())⟩, ⟨2, fun _ => (some [0, 0], ())⟩]
  obtain ⟨m, h1, h2, h3, h4, h5, h6, h7, h8⟩ := C204_setup comps (by simp [comps]) (by simp [comps])
  have hm : m.dsize = 0 := h8 ⟨comps[0], by simp [comps], comps[1], by simp [comps], by simp [comps]⟩
  have hw : m.weights = [1 / 2, 1 / 2] := by
    have : m = ⟨0, comps, List.replicate 2 (1 / ((2 : ℕ) : ℝ)), none⟩ := by
      have h1' := h1
      simp [setUp, comps, sizeLoop] at h1'
      rw [← h1']; simp [comps, List.replicate]
    rw [this]; simp [List.replicate]
  obtain ⟨i, c, m', k1, k2, k3, -⟩ := C204_draw (fun _ => ((3 : ℝ) / 4, ())) (by intro; norm_num) m h3 h4 ()
  have hi : i = 1 := by
    obtain ⟨q1, q2, -, q4⟩ := k1
    rw [hw] at q1 q2 q4
    match i with
    | 0 => norm_num [cumShare] at q2
    | 1 => rfl
    | k + 2 => simp at q1
  subst hi
  have hp : prepSize m = 1 := by simp [prepSize, h2, hm, comps]
  rw [h2] at k2
  simp only [comps, List.getElem?_cons_succ, List.getElem?_cons_zero, Option.some.injEq] at k2
  subst k2
  exact ⟨comps, m, _, h1, by simp [comps], by simp [comps], hp, k3, [0, 0], rfl, by rw [hp]; simp⟩

/-! ## Cases -/

/-- A mixture with weights 1 and 3 and components drawing constants meets the theorems' hypotheses. -/
example : let m : Mix Unit ℝ := ⟨1, [⟨1, fun _ => (some [5], ())⟩, ⟨1, fun _ => (some [7], ())⟩], [1, 3], none⟩
    Weighted m ∧ Current m ∧ ∀ c ∈ m.comps, ∀ g, (c.draw g).1 ≠ none := by
  refine ⟨⟨rfl, by simp, by norm_num⟩, by simp [Current], by simp⟩

/-- The second is chosen by a half. -/
example : Chosen [1, 3] (1 / 2) 1 := by
  refine ⟨by simp, by norm_num [cumShare], by norm_num, fun _ => by norm_num [cumShare]⟩

end Apop.MixDraw
