import Verif.Fisher.NetThms

/-! # Stages and the whole network -/

namespace Apop.Fisher
open Finset

theorem way_all {l : List ℕ} {n : ℕ} {ps : List (ℕ × ℕ)} (h : Way l n ps) : l.sum = n → ps.map Prod.fst = l := by
  induction h with
  | nil => intro _; rfl
  | @cons a l n ps x hx hn h ih =>
    intro hs
    rw [List.sum_cons] at hs
    have h2 := h.props.2.1
    have hxa : x = a := by omega
    subst hxa
    rw [List.map_cons, ih (by omega)]

theorem len_one {l : List ℕ} {m : ℕ} {q : ℝ} (hs : l.sum = m) (h : Len l [m] q) : q = lmult m l := by
  obtain ⟨ps, q', hw, hq, rfl⟩ := h
  have hq' : q' = 0 := hq
  rw [hq', way_all hw hs, add_zero]

variable {P : Par} {iro : List ℕ} {Inv : List ℕ → ℝ → Prop} {ε : ℝ} {r k : ℕ}

theorem massT_nil (kyy : List ℕ) (ω : List ℕ → ℝ → ℝ) : massT kyy ω [] = 0 := rfl

theorem lf_nonneg (n : ℕ) : 0 ≤ lf n := by
  unfold lf
  exact Real.log_nonneg (by exact_mod_cast Nat.one_le_iff_ne_zero.mpr (Nat.factorial_ne_zero n))

/-- No path is longer than if all the cells were at most one. -/
theorem len_le {cols : List ℕ} : ∀ {rows : List ℕ} {q : ℝ}, Len rows cols q → q ≤ (cols.map lf).sum := by
  induction cols with
  | nil => intro rows q h; rw [show q = 0 from h]; simp
  | cons c cs ih =>
    intro rows q h
    obtain ⟨ps, q', hw, hq, rfl⟩ := h
    have h2 : lmult c (ps.map Prod.fst) ≤ lf c := by
      unfold lmult
      have : 0 ≤ ((ps.map Prod.fst).map lf).sum := by
        refine List.sum_nonneg (fun x hx => ?_)
        obtain ⟨a, _, rfl⟩ := List.mem_map.mp hx
        exact lf_nonneg a
      linarith
    rw [List.map_cons, List.sum_cons]
    linarith [ih hq]

theorem clamp_le (x : ℝ) : clamp x ≤ x := by
  unfold clamp
  by_cases h : 0 < x
  · rw [if_pos h]; exact h.le
  · rw [if_neg h]

theorem le_clamp {x y : ℝ} (h : y ≤ x) (h0 : y ≤ 0) : y ≤ clamp x := by
  unfold clamp
  by_cases h : 0 < x
  · rw [if_pos h]; exact h0
  · rw [if_neg h]; assumption

theorem bounds_inv {rows cols : List ℕ} {b : ℝ × ℝ} (h : bounds P rows cols = .ok b) :
    ∃ lp sp, P.lp rows cols = .ok lp ∧ P.sp rows cols = .ok sp ∧ b = (clamp lp, clamp sp) := by
  unfold bounds at h
  cases h1 : P.lp rows cols with
  | ok lp =>
    cases h2 : P.sp rows cols with
    | ok sp => rw [h1, h2] at h; simp only [Net.ok.injEq] at h; exact ⟨lp, sp, rfl, rfl, h.symm⟩
    | err => rw [h1, h2] at h; cases h
    | ub => rw [h1, h2] at h; cases h
  | err => rw [h1] at h; cases h
  | ub => rw [h1] at h; cases h

theorem inner_spec (C : Ctx P iro Inv ε r k) {l d rest : List ℕ} {n c : ℕ} (hcols : rest.Pairwise (· ≤ ·))
    (hlen : rest.length = c + 2) (hk : rest.length ≤ k) (hn : Node iro (n :: rest) l) (hd : Col l n d)
    {ch : List (ℝ × ℕ)} (hch : ∀ e ∈ ch, Inv l e.1) {st st' : St} (hok : TabOK iro rest Inv st.tab)
    (h : innerDaughter P n rest ch d (sortUp (leave l d)) st = .ok st') :
    TabOK iro rest Inv st'.tab
    ∧ Real.exp P.dro * st'.pre + massT (kyyFrom 1 iro) (Up P.obs ε c rest) st'.tab
      ≤ Real.exp P.dro * st.pre + massT (kyyFrom 1 iro) (Up P.obs ε c rest) st.tab
        + chainSum (fun p => Up P.obs ε (c + 1) rest (leave l d) (p + lmult n d)) ch
    ∧ Real.exp P.dro * st.pre + massT (kyyFrom 1 iro) (Lo P.obs ε c rest) st.tab
        + chainSum (fun p => Lo P.obs ε (c + 1) rest (leave l d) (p + lmult n d)) ch
      ≤ Real.exp P.dro * st'.pre + massT (kyyFrom 1 iro) (Lo P.obs ε c rest) st'.tab := by
  have hnode := node_daughter hn hd
  have hperm := sortUp_perm (leave l d)
  have hsum : (leave l d).sum = rest.sum := by rw [← hperm.sum_eq, hnode.sum]
  have hrows : (dropZeros (sortUp (leave l d))).length ≤ r := by
    refine le_trans (dropZeros_sublist _).length_le ?_
    rw [← hnode.le.length_eq]; exact C.rows
  have hq : ∀ b, bounds P (dropZeros (sortUp (leave l d))) rest = .ok b → ∀ q, Len (leave l d) rest q →
      q ≤ (rest.map lf).sum + b.1 ∧ (rest.map lf).sum + b.2 ≤ q := by
    intro b hb q hl
    obtain ⟨lp, sp, e1, e2, rfl⟩ := bounds_inv hb
    have hl2 : Len (dropZeros (sortUp (leave l d))) rest q := by
      rw [dropZeros_eq, Len_nonzero, Len_perm hperm]; exact hl
    have hsz : (dropZeros (sortUp (leave l d))).sum = rest.sum := by rw [dropZeros_sum, hnode.sum]
    have hsrt : (dropZeros (sortUp (leave l d))).Pairwise (· ≤ ·) := hnode.sorted.sublist (dropZeros_sublist _)
    have b1 := C.lp _ _ q lp e1 hsrt (dropZeros_pos hnode.sorted) hcols hsz hrows (by omega) hk hl2
    have b2 := C.sp _ _ q sp e2 hsrt (dropZeros_pos hnode.sorted) hcols hsz hrows (by omega) hk hl2
    have b3 := le_clamp (x := lp) (y := q - (rest.map lf).sum) (by linarith) (by linarith [len_le hl])
    have b4 := clamp_le sp
    exact ⟨by linarith, by linarith⟩
  unfold innerDaughter at h
  by_cases hfull : encode P.kyy (sortUp (leave l d)) ∉ st.seen ∧ 2 * P.ldkey ≤ st.seen.length
  · rw [if_pos hfull] at h; cases h
  · rw [if_neg hfull] at h
    cases hbo : bounds P (dropZeros (sortUp (leave l d))) rest with
    | err => rw [hbo] at h; cases h
    | ub => rw [hbo] at h; cases h
    | ok b =>
    rw [hbo] at h
    simp only [] at h
    have hdrn : f9xact rest.sum (dropZeros (sortUp (leave l d))) - P.dro + f9xact n d
        = lmult rest.sum (sortUp (leave l d)) - P.dro + lmult n d := by
      rw [f9xact_eq, f9xact_eq, dropZeros_eq, lmult_nonzero]
    rw [obsLess_eq, hdrn, f9xact_eq] at h
    refine visit_spec (irn := sortUp (leave l d)) (st := ⟨st.pre, if encode P.kyy (sortUp (leave l d)) ∈ st.seen then st.seen
      else encode P.kyy (sortUp (leave l d)) :: st.seen, st.tab, st.itop⟩) (K := Real.exp P.dro) C.tol ?_ ?_ ?_ (fun p => Up_nonneg _ _ _ _ _ _) ?_ hok h
    · intro p hp
      have hs := settle (obs := P.obs) (dro := P.dro) (c := c + 1) (p := p) (ddf := lmult n d) C.eps rfl hperm hsum rfl
      refine ⟨hs.2, hs.1 (fun q hl => ?_)⟩
      have := (hq b hbo q hl).1
      linarith
    · intro _
      refine ⟨by rw [C.kyy], hnode, fun p s hi hs hab => ?_⟩
      have hcl := C.close _ _ _ hi hs hab
      rw [← Up_perm (l := sortUp (leave l d)) hperm, ← Lo_perm (l := sortUp (leave l d)) hperm]
      exact ⟨Lo_move hcl, Up_move hcl⟩
    · intro p hp
      refine dropped C.eps (fun q hl => ?_)
      have := (hq b hbo q hl).2
      linarith
    · intro e he
      exact C.step l n d e.1 (hch e he) hd

theorem last_spec (C : Ctx P iro Inv ε r k) {l d : List ℕ} {n m : ℕ} (hn : Node iro [n, m] l) (hd : Col l n d)
    {ch : List (ℝ × ℕ)} {st st' : St} (hst : st.tab = [])
    (h : lastDaughter P n [m] ch d (leave l d) st = .ok st') :
    st'.tab = []
    ∧ Real.exp P.dro * st'.pre ≤ Real.exp P.dro * st.pre
        + chainSum (fun p => Up P.obs ε 0 [m] (leave l d) (p + lmult n d)) ch
    ∧ Real.exp P.dro * st.pre + chainSum (fun p => Lo P.obs ε 0 [m] (leave l d) (p + lmult n d)) ch
      ≤ Real.exp P.dro * st'.pre := by
  have hsum : (leave l d).sum = [m].sum := by
    have h1 := col_leave_sum hd
    have h2 := hn.sum
    simp only [List.sum_cons, List.sum_nil] at *
    omega
  have hsum' : (leave l d).sum = m := by simpa using hsum
  unfold lastDaughter at h
  rw [f9xact_eq, f9xact_eq] at h
  have hq : ∀ q, Len (leave l d) [m] q → q = lmult [m].sum (leave l d) := by
    intro q hl
    have := len_one hsum' hl
    rw [this]; simp
  have hv := visit_spec (P := P) (iro := iro) (rest := [m]) (irn := leave l d) (Inv := fun _ _ => True)
    (K := Real.exp P.dro) (U' := fun _ _ => 0) (L' := fun _ _ => 0)
    (U := fun p => Up P.obs ε 0 [m] (leave l d) (p + lmult n d))
    (L := fun p => Lo P.obs ε 0 [m] (leave l d) (p + lmult n d)) C.tol ?_ (fun hlt => absurd hlt (lt_irrefl _)) ?_
    (fun p => Up_nonneg _ _ _ _ _ _) (ch := ch) (st := st) (st' := st') (fun _ _ => trivial)
    (by rw [hst]; intro x hx; cases hx) h
  · have htab : st'.tab = [] := by
      have : ∀ (ch : List (ℝ × ℕ)) (o x y : ℝ) (key : ℕ) (st st' : St), visit P o o x y key ch st = .ok st' → st'.tab = st.tab := by
        intro ch o x y key
        induction ch with
        | nil => intro st st' h; unfold visit at h; cases h; rfl
        | cons e ch ih =>
          intro st st' h
          unfold visit at h
          by_cases h1 : e.1 ≤ o
          · rw [if_pos h1] at h
            exact ih ⟨st.pre + e.2 * Real.exp (e.1 + x), st.seen, st.tab, st.itop⟩ st' h
          · rw [if_neg h1, if_neg (by intro h2; exact h1 h2.le)] at h; exact ih _ _ h
      rw [this _ _ _ _ _ _ _ h, hst]
    refine ⟨htab, ?_, ?_⟩
    · have := hv.2.1
      rw [htab, hst, massT_nil, add_zero, add_zero] at this
      exact this
    · have := hv.2.2
      rw [htab, hst, massT_nil, add_zero, add_zero] at this
      exact this
  · intro p hp
    have hs := settle (obs := P.obs) (dro := P.dro) (c := 0) (p := p) (ddf := lmult n d) C.eps rfl (List.Perm.refl (leave l d)) hsum rfl
    refine ⟨hs.2, hs.1 (fun q hl => ?_)⟩
    rw [hq q hl]; linarith
  · intro p hp
    refine dropped C.eps (fun q hl => ?_)
    rw [hq q hl]; linarith

/-- One term of the bounds, summed over all columns, is the term of the mother. -/
theorem Up_cols (obs : ℝ) (c : ℕ) {l rest : List ℕ} {n : ℕ} {ds : List (List ℕ)} (hnd : ds.Nodup) (hm : ∀ d, d ∈ ds ↔ Col l n d)
    (p : ℝ) : (ds.map (fun d => Up obs ε c rest (leave l d) (p + lmult n d))).sum = Up obs ε c (n :: rest) l p := by
  unfold Up
  rw [List.sum_map_mul_left]
  congr 1
  rw [show W l (n :: rest) (atMost (obs + c * ε) p)
    = S l n (fun ps => W (ps.map Prod.snd) rest (fun q => atMost (obs + c * ε) p (lmult n (ps.map Prod.fst) + q))) from rfl,
    ← daughters_sum hnd hm]
  congr 1
  refine List.map_congr_left (fun d hd => ?_)
  rw [pairs_fst (forall2_iff.mp ((hm d).mp hd).1).1, pairs_snd]
  refine W_congr (fun q _ => ?_)
  unfold atMost
  rw [add_assoc]

theorem Lo_cols (obs : ℝ) (c : ℕ) {l rest : List ℕ} {n : ℕ} {ds : List (List ℕ)} (hnd : ds.Nodup) (hm : ∀ d, d ∈ ds ↔ Col l n d)
    (p : ℝ) : (ds.map (fun d => Lo obs ε c rest (leave l d) (p + lmult n d))).sum = Lo obs ε c (n :: rest) l p := by
  unfold Lo
  rw [List.sum_map_mul_left]
  congr 1
  rw [show W l (n :: rest) (below (obs - c * ε) p)
    = S l n (fun ps => W (ps.map Prod.snd) rest (fun q => below (obs - c * ε) p (lmult n (ps.map Prod.fst) + q))) from rfl,
    ← daughters_sum hnd hm]
  congr 1
  refine List.map_congr_left (fun d hd => ?_)
  rw [pairs_fst (forall2_iff.mp ((hm d).mp hd).1).1, pairs_snd]
  refine W_congr (fun q _ => ?_)
  unfold below
  rw [add_assoc]

theorem chainSum_swap (G : List ℕ → ℝ → ℝ) (ds : List (List ℕ)) (ch : List (ℝ × ℕ)) :
    (ds.map (fun d => chainSum (G d) ch)).sum = chainSum (fun p => (ds.map (fun d => G d p)).sum) ch := by
  induction ch with
  | nil => simp [chainSum]
  | cons e ch ih =>
    obtain ⟨p, f⟩ := e
    rw [chainSum_cons, ← ih, ← List.sum_map_mul_left, ← List.sum_map_add]
    simp only [chainSum_cons]

/-- The stages that still have stages after them. -/
theorem allInner_spec (C : Ctx P iro Inv ε r k) {l rest : List ℕ} {n c : ℕ} (hcols : rest.Pairwise (· ≤ ·))
    (hlen : rest.length = c + 2) (hk : rest.length ≤ k) (hn : Node iro (n :: rest) l)
    {ch : List (ℝ × ℕ)} (hch : ∀ e ∈ ch, Inv l e.1) : ∀ {ds : List (List ℕ)} {st st' : St}, (∀ d ∈ ds, Col l n d) →
    TabOK iro rest Inv st.tab → allDaughters P l n rest ch ds st = .ok st' →
    TabOK iro rest Inv st'.tab
    ∧ Real.exp P.dro * st'.pre + massT (kyyFrom 1 iro) (Up P.obs ε c rest) st'.tab
      ≤ Real.exp P.dro * st.pre + massT (kyyFrom 1 iro) (Up P.obs ε c rest) st.tab
        + (ds.map (fun d => chainSum (fun p => Up P.obs ε (c + 1) rest (leave l d) (p + lmult n d)) ch)).sum
    ∧ Real.exp P.dro * st.pre + massT (kyyFrom 1 iro) (Lo P.obs ε c rest) st.tab
        + (ds.map (fun d => chainSum (fun p => Lo P.obs ε (c + 1) rest (leave l d) (p + lmult n d)) ch)).sum
      ≤ Real.exp P.dro * st'.pre + massT (kyyFrom 1 iro) (Lo P.obs ε c rest) st'.tab := by
  intro ds
  induction ds with
  | nil =>
    intro st st' _ hok h
    unfold allDaughters at h
    cases h
    simp only [List.map_nil, List.sum_nil, add_zero]
    exact ⟨hok, le_refl _, le_refl _⟩
  | cons d ds ih =>
    intro st st' hd hok h
    unfold allDaughters at h
    cases h1 : daughter P l n rest ch d st with
    | ok st1 =>
      rw [h1] at h
      unfold daughter at h1
      rw [if_pos (by omega)] at h1
      obtain ⟨a1, a2, a3⟩ := inner_spec C hcols hlen hk hn (hd d (by simp)) hch hok h1
      obtain ⟨b1, b2, b3⟩ := ih (fun d hd' => hd d (List.mem_cons_of_mem _ hd')) a1 h
      rw [List.map_cons, List.sum_cons, List.map_cons, List.sum_cons]
      exact ⟨b1, by linarith, by linarith⟩
    | err => rw [h1] at h; cases h
    | ub => rw [h1] at h; cases h

theorem allLast_spec (C : Ctx P iro Inv ε r k) {l : List ℕ} {n m : ℕ} (hn : Node iro [n, m] l)
    {ch : List (ℝ × ℕ)} : ∀ {ds : List (List ℕ)} {st st' : St}, (∀ d ∈ ds, Col l n d) →
    st.tab = [] → allDaughters P l n [m] ch ds st = .ok st' →
    st'.tab = []
    ∧ Real.exp P.dro * st'.pre ≤ Real.exp P.dro * st.pre
        + (ds.map (fun d => chainSum (fun p => Up P.obs ε 0 [m] (leave l d) (p + lmult n d)) ch)).sum
    ∧ Real.exp P.dro * st.pre + (ds.map (fun d => chainSum (fun p => Lo P.obs ε 0 [m] (leave l d) (p + lmult n d)) ch)).sum
      ≤ Real.exp P.dro * st'.pre := by
  intro ds
  induction ds with
  | nil =>
    intro st st' _ hok h
    unfold allDaughters at h
    cases h
    simp only [List.map_nil, List.sum_nil, add_zero]
    exact ⟨hok, le_refl _, le_refl _⟩
  | cons d ds ih =>
    intro st st' hd hok h
    unfold allDaughters at h
    cases h1 : daughter P l n [m] ch d st with
    | ok st1 =>
      rw [h1] at h
      unfold daughter at h1
      rw [if_neg (by simp)] at h1
      obtain ⟨a1, a2, a3⟩ := last_spec C hn (hd d (by simp)) hok h1
      obtain ⟨b1, b2, b3⟩ := ih (fun d hd' => hd d (List.mem_cons_of_mem _ hd')) a1 h
      rw [List.map_cons, List.sum_cons, List.map_cons, List.sum_cons]
      exact ⟨b1, by linarith, by linarith⟩
    | err => rw [h1] at h; cases h
    | ub => rw [h1] at h; cases h

/-- The last column is not empty. -/
def LastPos (cols : List ℕ) : Prop := ∃ i c, cols = i ++ [c] ∧ 0 < c

theorem lastPos_tail {n : ℕ} {rest : List ℕ} (h : LastPos (n :: rest)) (hr : rest ≠ []) : LastPos rest := by
  obtain ⟨i, c, he, hc⟩ := h
  cases i with
  | nil => simp at he; exact absurd he.2 hr
  | cons a i => simp at he; exact ⟨i, c, he.2, hc⟩

theorem lastPos_sum {cols : List ℕ} (h : LastPos cols) : 0 < cols.sum := by
  obtain ⟨i, c, rfl, hc⟩ := h
  simp; omega

theorem sorted_last {l : List ℕ} (h : l.Pairwise (· ≤ ·)) (hs : 0 < l.sum) : 0 < arr l l.length := by
  by_contra hc
  have h0 : arr l l.length = 0 := by omega
  have hne : l ≠ [] := by rintro rfl; simp at hs
  have hall : ∀ x ∈ l, x = 0 := by
    intro x hx
    have hlast : l.getLast hne = 0 := by
      rw [← h0]
      have : l.length ≠ 0 := by simpa using hne
      unfold arr
      rw [if_neg this, List.getLast_eq_getElem, List.getD_eq_getElem _ _ (by omega)]
    have hle : x ≤ l.getLast hne := by
      rw [← List.dropLast_append_getLast hne] at hx h
      rcases List.mem_append.mp hx with hx | hx
      · exact (List.pairwise_append.mp h).2.2 x hx _ (by simp)
      · rw [List.mem_singleton] at hx; exact hx.le
    omega
  have : l.sum = 0 := List.sum_eq_zero hall
  omega

/-- Nodes to be processed at a stage. -/
def MsOK (iro cols : List ℕ) (Inv : List ℕ → ℝ → Prop) (ms : List (List ℕ × List (ℝ × ℕ))) : Prop :=
  ∀ m ∈ ms, Node iro cols m.1 ∧ ∀ e ∈ m.2, Inv m.1 e.1

theorem mass_cons (ω : List ℕ → ℝ → ℝ) (l : List ℕ) (ch : List (ℝ × ℕ)) (ms : List (List ℕ × List (ℝ × ℕ))) :
    mass ω ((l, ch) :: ms) = chainSum (ω l) ch + mass ω ms := by simp [mass]

theorem stageInner_spec (C : Ctx P iro Inv ε r k) {rest : List ℕ} {n c : ℕ} (hcols : rest.Pairwise (· ≤ ·)) (hlp : LastPos rest)
    (hlen : rest.length = c + 2) (hk : rest.length ≤ k) : ∀ {ms : List (List ℕ × List (ℝ × ℕ))} {st st' : St},
    MsOK iro (n :: rest) Inv ms → TabOK iro rest Inv st.tab → stage P n rest ms st = .ok st' →
    TabOK iro rest Inv st'.tab
    ∧ Real.exp P.dro * st'.pre + massT (kyyFrom 1 iro) (Up P.obs ε c rest) st'.tab
      ≤ Real.exp P.dro * st.pre + massT (kyyFrom 1 iro) (Up P.obs ε c rest) st.tab
        + mass (fun l p => Up P.obs ε (c + 1) (n :: rest) l p) ms
    ∧ Real.exp P.dro * st.pre + massT (kyyFrom 1 iro) (Lo P.obs ε c rest) st.tab
        + mass (fun l p => Lo P.obs ε (c + 1) (n :: rest) l p) ms
      ≤ Real.exp P.dro * st'.pre + massT (kyyFrom 1 iro) (Lo P.obs ε c rest) st'.tab := by
  intro ms
  induction ms with
  | nil =>
    intro st st' _ hok h
    unfold stage at h
    cases h
    simp only [mass, List.map_nil, List.sum_nil, add_zero]
    exact ⟨hok, le_refl _, le_refl _⟩
  | cons m ms ih =>
    obtain ⟨l, ch⟩ := m
    intro st st' hms hok h
    obtain ⟨hn, hch⟩ := hms (l, ch) (by simp)
    unfold stage at h
    cases h1 : mother P l n rest ch st with
    | ok st1 =>
      rw [h1] at h
      have hsum := hn.sum
      simp only [List.sum_cons] at hsum
      have hpos := lastPos_sum hlp
      obtain ⟨ds, e1, e2, e3⟩ := daughters_spec (l := l) (n := n) (sorted_last hn.sorted (by omega)) (by omega)
      unfold mother at h1
      rw [e1] at h1
      obtain ⟨a1, a2, a3⟩ := allInner_spec C hcols hlen hk hn hch (fun d hd => (e3 d).mp hd) hok h1
      obtain ⟨b1, b2, b3⟩ := ih (fun m hm => hms m (List.mem_cons_of_mem _ hm)) a1 h
      rw [chainSum_swap (fun d p => Up P.obs ε (c + 1) rest (leave l d) (p + lmult n d))] at a2
      rw [chainSum_swap (fun d p => Lo P.obs ε (c + 1) rest (leave l d) (p + lmult n d))] at a3
      simp only [Up_cols P.obs (c + 1) e2 e3] at a2
      simp only [Lo_cols P.obs (c + 1) e2 e3] at a3
      rw [mass_cons, mass_cons]
      exact ⟨b1, by linarith, by linarith⟩
    | err => rw [h1] at h; cases h
    | ub => rw [h1] at h; cases h

theorem stageLast_spec (C : Ctx P iro Inv ε r k) {n m : ℕ} (hm : 0 < m) : ∀ {ms : List (List ℕ × List (ℝ × ℕ))} {st st' : St},
    MsOK iro [n, m] Inv ms → st.tab = [] → stage P n [m] ms st = .ok st' →
    st'.tab = []
    ∧ Real.exp P.dro * st'.pre ≤ Real.exp P.dro * st.pre + mass (fun l p => Up P.obs ε 0 [n, m] l p) ms
    ∧ Real.exp P.dro * st.pre + mass (fun l p => Lo P.obs ε 0 [n, m] l p) ms ≤ Real.exp P.dro * st'.pre := by
  intro ms
  induction ms with
  | nil =>
    intro st st' _ hok h
    unfold stage at h
    cases h
    simp only [mass, List.map_nil, List.sum_nil, add_zero]
    exact ⟨hok, le_refl _, le_refl _⟩
  | cons mm ms ih =>
    obtain ⟨l, ch⟩ := mm
    intro st st' hms hok h
    obtain ⟨hn, hch⟩ := hms (l, ch) (by simp)
    unfold stage at h
    cases h1 : mother P l n [m] ch st with
    | ok st1 =>
      rw [h1] at h
      have hsum := hn.sum
      simp only [List.sum_cons, List.sum_nil] at hsum
      obtain ⟨ds, e1, e2, e3⟩ := daughters_spec (l := l) (n := n) (sorted_last hn.sorted (by omega)) (by omega)
      unfold mother at h1
      rw [e1] at h1
      obtain ⟨a1, a2, a3⟩ := allLast_spec C hn (fun d hd => (e3 d).mp hd) hok h1
      obtain ⟨b1, b2, b3⟩ := ih (fun m hm => hms m (List.mem_cons_of_mem _ hm)) a1 h
      rw [chainSum_swap (fun d p => Up P.obs ε 0 [m] (leave l d) (p + lmult n d))] at a2
      rw [chainSum_swap (fun d p => Lo P.obs ε 0 [m] (leave l d) (p + lmult n d))] at a3
      simp only [Up_cols P.obs 0 e2 e3] at a2
      simp only [Lo_cols P.obs 0 e2 e3] at a3
      rw [mass_cons, mass_cons]
      exact ⟨b1, by linarith, by linarith⟩
    | err => rw [h1] at h; cases h
    | ub => rw [h1] at h; cases h

theorem msOK_mothers (C : Ctx P iro Inv ε r k) {cols : List ℕ} {tab : List (ℕ × Tree)} (h : TabOK iro cols Inv tab) :
    MsOK iro cols Inv (mothers P tab) := by
  intro m hm
  unfold mothers at hm
  obtain ⟨kt, hkt, rfl⟩ := List.mem_map.mp hm
  obtain ⟨l, h1, h2, h3⟩ := h kt ((C.ord.2 tab).mem_iff.mp hkt)
  simp only [h1, C.kyy, decode_encode h2.le]
  exact ⟨h2, fun e he => h3 e ((C.ord.1 _).mem_iff.mp he)⟩

/-- **The network.** With valid bounds on the longest and shortest paths, whatever
it adds to the p value lies between the two sums, if it finishes without error. -/
theorem network_spec (C : Ctx P iro Inv ε r k) : ∀ (c : ℕ) {cols : List ℕ} {ms : List (List ℕ × List (ℝ × ℕ))} {pre pre' : ℝ},
    cols.length = c + 2 → cols.length ≤ k + 1 → cols.Pairwise (· ≤ ·) → LastPos cols → MsOK iro cols Inv ms →
    network P cols ms pre = .ok pre' →
    Real.exp P.dro * pre' ≤ Real.exp P.dro * pre + mass (fun l p => Up P.obs ε c cols l p) ms
    ∧ Real.exp P.dro * pre + mass (fun l p => Lo P.obs ε c cols l p) ms ≤ Real.exp P.dro * pre' := by
  intro c
  induction c with
  | zero =>
    intro cols ms pre pre' hlen hk hs hlp hms h
    obtain ⟨n, m, rfl⟩ : ∃ n m, cols = [n, m] := by
      match cols, hlen with
      | [a, b], _ => exact ⟨a, b, rfl⟩
    have hm : 0 < m := by
      have := lastPos_sum (lastPos_tail hlp (by simp))
      simpa using this
    unfold network at h
    rw [if_neg (by simp)] at h
    cases h1 : stage P n [m] ms ⟨pre, [], [], 0⟩ with
    | ok st =>
      rw [h1] at h
      simp only [] at h
      unfold network at h
      rw [if_pos rfl] at h
      cases h
      obtain ⟨a1, a2, a3⟩ := stageLast_spec C hm hms rfl h1
      exact ⟨a2, a3⟩
    | err => rw [h1] at h; cases h
    | ub => rw [h1] at h; cases h
  | succ c ih =>
    intro cols ms pre pre' hlen hk hs hlp hms h
    cases cols with
    | nil => simp at hlen
    | cons n rest =>
      have hrl : rest.length = c + 2 := by simpa using hlen
      have hne : rest ≠ [] := by rintro rfl; simp at hrl
      unfold network at h
      rw [if_neg hne] at h
      cases h1 : stage P n rest ms ⟨pre, [], [], 0⟩ with
      | ok st =>
        rw [h1] at h
        simp only [] at h
        have hs' := (List.pairwise_cons.mp hs).2
        have hlp' := lastPos_tail hlp hne
        obtain ⟨a1, a2, a3⟩ := stageInner_spec C hs' hlp' hrl (by simpa using hk) hms (by intro x hx; cases hx) h1
        obtain ⟨b1, b2⟩ := ih hrl (by simp at hk; omega) hs' hlp' (msOK_mothers C a1) h
        rw [mass_mothers C.ord] at b1 b2
        rw [C.kyy] at b1 b2
        simp only [massT_nil, add_zero] at a2 a3
        exact ⟨by linarith, by linarith⟩
      | err => rw [h1] at h; cases h
      | ub => rw [h1] at h; cases h

end Apop.Fisher
