import Verif.Fisher.NetTables

/-! # The network algorithm accumulates the right sum -/

namespace Apop.Fisher
open Finset

open Classical in
/-- `exp` of the total path length, if that is at most `θ`. -/
noncomputable def atMost (θ p q : ℝ) : ℝ := if p + q ≤ θ then Real.exp (p + q) else 0

open Classical in
/-- `exp` of the total path length, if that is less than `θ`. -/
noncomputable def below (θ p q : ℝ) : ℝ := if p + q < θ then Real.exp (p + q) else 0

/-- An upper bound for what a past path length `p` at a node still contributes. -/
noncomputable def Up (obs ε : ℝ) (c : ℕ) (cols l : List ℕ) (p : ℝ) : ℝ :=
  Real.exp (c * ε) * W l cols (atMost (obs + c * ε) p)

/-- A lower bound. -/
noncomputable def Lo (obs ε : ℝ) (c : ℕ) (cols l : List ℕ) (p : ℝ) : ℝ :=
  Real.exp (-(c * ε)) * W l cols (below (obs - c * ε) p)

theorem atMost_nonneg (θ p q : ℝ) : 0 ≤ atMost θ p q := by
  unfold atMost; by_cases h : p + q ≤ θ
  · rw [if_pos h]; exact (Real.exp_pos _).le
  · rw [if_neg h]

theorem below_nonneg (θ p q : ℝ) : 0 ≤ below θ p q := by
  unfold below; by_cases h : p + q < θ
  · rw [if_pos h]; exact (Real.exp_pos _).le
  · rw [if_neg h]

theorem Up_nonneg (obs ε : ℝ) (c : ℕ) (cols l : List ℕ) (p : ℝ) : 0 ≤ Up obs ε c cols l p :=
  mul_nonneg (Real.exp_pos _).le (W_nonneg (atMost_nonneg _ _))

theorem Lo_nonneg (obs ε : ℝ) (c : ℕ) (cols l : List ℕ) (p : ℝ) : 0 ≤ Lo obs ε c cols l p :=
  mul_nonneg (Real.exp_pos _).le (W_nonneg (below_nonneg _ _))

/-- Moving a past path length by at most `ε` is paid for by one step of the bound. -/
theorem Up_move {obs ε s p : ℝ} {c : ℕ} {cols l : List ℕ} (h : |s - p| ≤ ε) :
    Up obs ε c cols l s ≤ Up obs ε (c + 1) cols l p := by
  unfold Up
  obtain ⟨h1, h2⟩ := abs_le.mp h
  have e1 : Real.exp (((c + 1 : ℕ) : ℝ) * ε) = Real.exp (c * ε) * Real.exp ε := by
    rw [← Real.exp_add]; congr 1; push_cast; ring
  rw [e1, mul_assoc, ← W_mul (Real.exp ε)]
  refine mul_le_mul_of_nonneg_left (W_le (fun q _ => ?_)) (Real.exp_pos _).le
  unfold atMost
  by_cases hq : s + q ≤ obs + c * ε
  · rw [if_pos hq, if_pos (by push_cast; linarith), ← Real.exp_add]
    exact Real.exp_le_exp.mpr (by linarith)
  · rw [if_neg hq]
    exact mul_nonneg (Real.exp_pos _).le (atMost_nonneg _ _ _)

theorem Lo_move {obs ε s p : ℝ} {c : ℕ} {cols l : List ℕ} (h : |s - p| ≤ ε) :
    Lo obs ε (c + 1) cols l p ≤ Lo obs ε c cols l s := by
  unfold Lo
  obtain ⟨h1, h2⟩ := abs_le.mp h
  have e1 : Real.exp (-(((c + 1 : ℕ) : ℝ) * ε)) = Real.exp (-(c * ε)) * Real.exp (-ε) := by
    rw [← Real.exp_add]; congr 1; push_cast; ring
  rw [e1, mul_assoc, ← W_mul (Real.exp (-ε))]
  refine mul_le_mul_of_nonneg_left (W_le (fun q _ => ?_)) (Real.exp_pos _).le
  unfold below
  by_cases hq : p + q < obs - ((c + 1 : ℕ) : ℝ) * ε
  · have : s + q < obs - c * ε := by push_cast at hq; linarith
    rw [if_pos hq, if_pos this, ← Real.exp_add]
    exact Real.exp_le_exp.mpr (by linarith)
  · rw [if_neg hq, mul_zero]
    exact below_nonneg _ _ _

/-- What processing a daughter with each past path length of its mother does. -/
theorem visit_spec {P : Par} {iro rest irn : List ℕ} {Inv : List ℕ → ℝ → Prop} {obs3 obs2 drn ddf K : ℝ} {key : ℕ}
    {U' L' : List ℕ → ℝ → ℝ} {U L : ℝ → ℝ} (ht : 0 ≤ P.tol)
    (hset : ∀ p, p ≤ obs3 → L p ≤ K * Real.exp (p + drn) ∧ K * Real.exp (p + drn) ≤ U p)
    (hput : obs3 < obs2 → key = encode (kyyFrom 1 iro) irn ∧ Node iro rest irn ∧
      ∀ p s, Inv irn (p + ddf) → Inv irn s → |s - (p + ddf)| ≤ P.tol → L p ≤ L' irn s ∧ U' irn s ≤ U p)
    (hdrop : ∀ p, obs2 ≤ p → L p ≤ 0) (hU : ∀ p, 0 ≤ U p) :
    ∀ {ch : List (ℝ × ℕ)} {st st' : St}, (∀ e ∈ ch, Inv irn (e.1 + ddf)) → TabOK iro rest Inv st.tab →
    visit P obs3 obs2 drn ddf key ch st = .ok st' →
    TabOK iro rest Inv st'.tab
    ∧ K * st'.pre + massT (kyyFrom 1 iro) U' st'.tab ≤ K * st.pre + massT (kyyFrom 1 iro) U' st.tab + chainSum U ch
    ∧ K * st.pre + massT (kyyFrom 1 iro) L' st.tab + chainSum L ch ≤ K * st'.pre + massT (kyyFrom 1 iro) L' st'.tab := by
  intro ch
  induction ch with
  | nil =>
    intro st st' _ hok h
    unfold visit at h
    cases h
    simp only [chainSum, List.map_nil, List.sum_nil, add_zero]
    exact ⟨hok, le_refl _, le_refl _⟩
  | cons e ch ih =>
    obtain ⟨p, f⟩ := e
    intro st st' hinv hok h
    have hinv' : ∀ e ∈ ch, Inv irn (e.1 + ddf) := fun e he => hinv e (List.mem_cons_of_mem _ he)
    have hf : (0 : ℝ) ≤ (f : ℝ) := Nat.cast_nonneg _
    unfold visit at h
    rw [chainSum_cons, chainSum_cons]
    by_cases h3 : p ≤ obs3
    · rw [if_pos h3] at h
      obtain ⟨a, b, c⟩ := ih (st := { st with pre := st.pre + (f : ℝ) * Real.exp (p + drn) }) hinv' hok h
      obtain ⟨s1, s2⟩ := hset p h3
      have b1 := mul_le_mul_of_nonneg_left s2 hf
      have b2 := mul_le_mul_of_nonneg_left s1 hf
      simp only [] at b c
      refine ⟨a, ?_, ?_⟩
      · have : K * (st.pre + (f : ℝ) * Real.exp (p + drn)) = K * st.pre + (f : ℝ) * (K * Real.exp (p + drn)) := by ring
        rw [this] at b; linarith
      · have : K * (st.pre + (f : ℝ) * Real.exp (p + drn)) = K * st.pre + (f : ℝ) * (K * Real.exp (p + drn)) := by ring
        rw [this] at c; linarith
    · rw [if_neg h3] at h
      by_cases h2 : p < obs2
      · rw [if_pos h2] at h
        obtain ⟨hk, hn, hb⟩ := hput (lt_of_lt_of_le (not_le.mp h3) h2.le)
        cases hp : put P key (p + ddf) f st with
        | ok st1 =>
          rw [hp] at h
          simp only [] at h
          rw [hk] at hp
          have hi := hinv (p, f) (by simp)
          obtain ⟨e1, e2, s, e3, e4, e5⟩ := put_spec ht hn hi hok hp
          obtain ⟨a, b, c⟩ := ih hinv' e2 h
          obtain ⟨b1, b2⟩ := hb p s hi e4 e3
          have c1 := mul_le_mul_of_nonneg_left b1 hf
          have c2 := mul_le_mul_of_nonneg_left b2 hf
          rw [e1, e5] at b c
          exact ⟨a, by linarith, by linarith⟩
        | err => rw [hp] at h; cases h
        | ub => rw [hp] at h; cases h
      · rw [if_neg h2] at h
        obtain ⟨a, b, c⟩ := ih hinv' hok h
        have c1 := mul_le_mul_of_nonneg_left (hdrop p (not_lt.mp h2)) hf
        have c2 := mul_nonneg hf (hU p)
        rw [mul_zero] at c1
        exact ⟨a, by linarith, by linarith⟩

/-- f3xact's result, if there is one, is at least the longest path, for every table
that has at most `r` rows and `k` columns (sorted, no empty row). -/
def LpOK (lp : List ℕ → List ℕ → Net ℝ) (r k : ℕ) : Prop :=
  ∀ rows cols q v, lp rows cols = .ok v → rows.Pairwise (· ≤ ·) → (∀ x ∈ rows, 0 < x) → cols.Pairwise (· ≤ ·) → rows.sum = cols.sum →
    rows.length ≤ r → 2 ≤ cols.length → cols.length ≤ k → Len rows cols q → q ≤ (cols.map lf).sum + v

/-- f4xact's result, if there is one, is at most the shortest path. -/
def SpOK (sp : List ℕ → List ℕ → Net ℝ) (r k : ℕ) : Prop :=
  ∀ rows cols q v, sp rows cols = .ok v → rows.Pairwise (· ≤ ·) → (∀ x ∈ rows, 0 < x) → cols.Pairwise (· ≤ ·) → rows.sum = cols.sum →
    rows.length ≤ r → 2 ≤ cols.length → cols.length ≤ k → Len rows cols q → (cols.map lf).sum + v ≤ q

theorem dropZeros_eq (l : List ℕ) : dropZeros l = nonzero l := rfl

theorem dropZeros_pos {l : List ℕ} (h : l.Pairwise (· ≤ ·)) : ∀ x ∈ dropZeros l, 0 < x := by
  induction l with
  | nil => intro x hx; cases hx
  | cons a l ih =>
    rw [List.pairwise_cons] at h
    unfold dropZeros at *
    intro x hx
    by_cases ha : a = 0
    · subst ha
      rw [List.dropWhile_cons_of_pos (by simp)] at hx
      exact ih h.2 x hx
    · rw [List.dropWhile_cons_of_neg (by simpa using ha)] at hx
      rcases List.mem_cons.mp hx with rfl | hx
      · omega
      · have := h.1 x hx; omega

theorem dropZeros_sublist (l : List ℕ) : List.Sublist (dropZeros l) l := List.dropWhile_sublist _

theorem dropZeros_sum (l : List ℕ) : (dropZeros l).sum = l.sum := by
  induction l with
  | nil => rfl
  | cons a l ih =>
    unfold dropZeros at *
    by_cases ha : a = 0
    · subst ha
      rw [List.dropWhile_cons_of_pos (by simp), ih, List.sum_cons, Nat.zero_add]
    · rw [List.dropWhile_cons_of_neg (by simpa using ha)]

theorem obsLess_eq (P : Par) (rest : List ℕ) (ddf : ℝ) : obsLess P rest ddf = P.obs - ddf - (rest.map lf).sum := by
  unfold obsLess
  rw [foldl_sub]
  have : factC = lf := funext factC_eq
  rw [this]

/-- The settings of a stage: `c + 1` columns remain after this one. -/
structure Ctx (P : Par) (iro : List ℕ) (Inv : List ℕ → ℝ → Prop) (ε : ℝ) (r k : ℕ) : Prop where
  tol : 0 ≤ P.tol
  eps : 0 ≤ ε
  kyy : P.kyy = kyyFrom 1 iro
  ord : Orders P
  lp : LpOK P.lp r k
  sp : SpOK P.sp r k
  rows : iro.length ≤ r
  step : ∀ l n d p, Inv l p → Col l n d → Inv (sortUp (leave l d)) (p + lmult n d)
  close : ∀ l p s, Inv l p → Inv l s → |s - p| ≤ P.tol → |s - p| ≤ ε

theorem sortUp_perm (l : List ℕ) : List.Perm (sortUp l) l := List.perm_insertionSort _ _
theorem sortUp_sorted (l : List ℕ) : (sortUp l).Pairwise (· ≤ ·) := List.pairwise_insertionSort _ _

theorem col_leave_sum {l d : List ℕ} {n : ℕ} (h : Col l n d) : (leave l d).sum + n = l.sum := by
  obtain ⟨h1, h2⟩ := h
  subst h2
  induction h1 with
  | nil => rfl
  | cons h _ ih =>
    unfold leave at *
    simp only [List.zipWith_cons_cons, List.sum_cons]
    omega

theorem col_leave_le {l d : List ℕ} {n : ℕ} (h : Col l n d) : List.Forall₂ (fun x y => y ≤ x) l (leave l d) := by
  have h1 := h.1
  clear h
  induction h1 with
  | nil => exact List.Forall₂.nil
  | cons h _ ih => exact List.Forall₂.cons (Nat.sub_le _ _) ih

/-- Sorting keeps domination. -/
theorem sort_dominated : ∀ {a b : List ℕ}, a.Pairwise (· ≤ ·) → List.Forall₂ (fun x y => y ≤ x) a b →
    List.Forall₂ (fun x y => y ≤ x) a (sortUp b) := by
  have ins : ∀ (x : ℕ) (b : List ℕ) (y : ℕ) (a : List ℕ), (y :: a).Pairwise (· ≤ ·) → x ≤ y →
      List.Forall₂ (fun x y => y ≤ x) a b → List.Forall₂ (fun x y => y ≤ x) (y :: a) (List.orderedInsert (· ≤ ·) x b) := by
    intro x b
    induction b with
    | nil => intro y a _ hxy h; cases h; exact List.Forall₂.cons hxy List.Forall₂.nil
    | cons z b ih =>
      intro y a hs hxy h
      by_cases hxz : x ≤ z
      · rw [List.orderedInsert_cons_of_le _ _ hxz]
        exact List.Forall₂.cons hxy h
      · rw [List.orderedInsert_of_not_le _ _ hxz]
        cases h with
        | @cons w _ a' _ hw h =>
          rw [List.pairwise_cons] at hs
          exact List.Forall₂.cons (by omega) (ih w a' hs.2 (le_trans hxy (hs.1 w (by simp))) h)
  intro a
  induction a with
  | nil => intro b _ h; cases h; exact List.Forall₂.nil
  | cons y a ih =>
    intro b hs h
    cases h with
    | @cons _ x _ b hxy h =>
      have hs' := (List.pairwise_cons.mp hs).2
      exact ins x (sortUp b) y a hs hxy (ih hs' h)

theorem node_daughter {iro l d rest : List ℕ} {n : ℕ} (h : Node iro (n :: rest) l) (hd : Col l n d) :
    Node iro rest (sortUp (leave l d)) := by
  refine ⟨sortUp_sorted _, ?_, ?_⟩
  · have h1 : List.Forall₂ (fun x y => y ≤ x) l (sortUp (leave l d)) := sort_dominated h.sorted (col_leave_le hd)
    have h2 := h.le
    rw [forall2_iff] at *
    exact ⟨h2.1.trans h1.1, fun i => (h1.2 i).trans (h2.2 i)⟩
  · rw [(sortUp_perm _).sum_eq]
    have h1 := col_leave_sum hd
    have h2 := h.sum
    rw [List.sum_cons] at h2
    omega

/-- Settled completions: when every completion is short enough, all of them are
added at once. -/
theorem settle {obs ε x K : ℝ} {c : ℕ} {rest l irn : List ℕ} {p ddf dro : ℝ} (he : 0 ≤ ε) (hK : K = Real.exp dro)
    (hperm : List.Perm irn l) (hs : l.sum = rest.sum) (hx : x = lmult rest.sum irn - dro + ddf) :
    ((∀ q, Len l rest q → p + ddf + q ≤ obs) → K * Real.exp (p + x) ≤ Up obs ε c rest l (p + ddf))
    ∧ Lo obs ε c rest l (p + ddf) ≤ K * Real.exp (p + x) := by
  have hc : 0 ≤ (c : ℝ) * ε := mul_nonneg (Nat.cast_nonneg _) he
  have h1 : K * Real.exp (p + x) = W l rest (fun q => Real.exp (p + ddf + q)) := by
    have : W l rest (fun q => Real.exp (p + ddf + q)) = Real.exp (p + ddf) * W l rest Real.exp := by
      rw [← W_mul]; exact W_congr (fun q _ => Real.exp_add _ _)
    rw [this, W_total hs, hK, ← Real.exp_add, ← Real.exp_add, hx, lmult_perm hperm, hs]
    congr 1; ring
  constructor
  · intro hq
    unfold Up
    rw [h1]
    have h2 : W l rest (fun q => Real.exp (p + ddf + q)) ≤ W l rest (atMost (obs + c * ε) (p + ddf)) := by
      refine W_le (fun q hl => ?_)
      unfold atMost
      rw [if_pos (by have := hq q hl; linarith)]
    have h3 : 0 ≤ W l rest (atMost (obs + c * ε) (p + ddf)) := W_nonneg (atMost_nonneg _ _)
    have h4 : 1 ≤ Real.exp (c * ε) := Real.one_le_exp hc
    nlinarith
  · unfold Lo
    rw [h1]
    have h2 : W l rest (below (obs - c * ε) (p + ddf)) ≤ W l rest (fun q => Real.exp (p + ddf + q)) := by
      refine W_le (fun q hl => ?_)
      unfold below
      by_cases h : p + ddf + q < obs - c * ε
      · rw [if_pos h]
      · rw [if_neg h]; exact (Real.exp_pos _).le
    have h3 : 0 ≤ W l rest (below (obs - c * ε) (p + ddf)) := W_nonneg (below_nonneg _ _)
    have h4 : Real.exp (-(c * ε)) ≤ 1 := Real.exp_le_one_iff.mpr (by linarith)
    nlinarith

theorem Up_perm {obs ε p : ℝ} {c : ℕ} {cols l l' : List ℕ} (h : List.Perm l l') : Up obs ε c cols l p = Up obs ε c cols l' p := by
  unfold Up; rw [W_perm _ h]

theorem Lo_perm {obs ε p : ℝ} {c : ℕ} {cols l l' : List ℕ} (h : List.Perm l l') : Lo obs ε c cols l p = Lo obs ε c cols l' p := by
  unfold Lo; rw [W_perm _ h]

/-- Dropped completions: when every completion is too long, none counts. -/
theorem dropped {obs ε p : ℝ} {c : ℕ} {rest l : List ℕ} (he : 0 ≤ ε) (h : ∀ q, Len l rest q → obs ≤ p + q) :
    Lo obs ε c rest l p ≤ 0 := by
  have hc : 0 ≤ (c : ℝ) * ε := mul_nonneg (Nat.cast_nonneg _) he
  unfold Lo
  have : W l rest (below (obs - c * ε) p) ≤ W l rest (fun _ => 0) := by
    refine W_le (fun q hl => ?_)
    unfold below
    rw [if_neg (by have := h q hl; linarith)]
  rw [W_zero] at this
  exact mul_nonpos_of_nonneg_of_nonpos (Real.exp_pos _).le this

end Apop.Fisher
