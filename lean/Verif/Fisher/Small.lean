import Verif.Fisher.TwoCols

/-! # The path bounds for small tables

f3xact and f4xact for one row, and for two rows and two columns
(apop_fexact.c:819-842, 1103-1121), and what follows for tables of one row, and of
two rows and three columns. -/

namespace Apop.Fisher
open Finset

/-- f3xact's easy cases, apop_fexact.c:819-842. -/
noncomputable def f3small : List ℕ → List ℕ → ℝ
  | [_], cols => cols.foldl (fun LP c => LP - factC c) 0
  | [r1, r2], [c1, c2] =>
    -(factC ((r1 + 1) * (c1 + 1) / (r1 + r2 + 2)) + factC (r1 - (r1 + 1) * (c1 + 1) / (r1 + r2 + 2))
      + factC (c1 - (r1 + 1) * (c1 + 1) / (r1 + r2 + 2)) + factC (c2 - (r1 - (r1 + 1) * (c1 + 1) / (r1 + r2 + 2))))
  | _, _ => 0

/-- f4xact's easy cases, apop_fexact.c:1103-1121; there the arrays are 0-based, so
`irow[1]` and `icol[1]` are the second totals. -/
noncomputable def f4small : List ℕ → List ℕ → ℝ
  | [_], cols => cols.foldl (fun SP c => SP - factC c) 0
  | [_, r2], [_, c2] =>
    if r2 ≤ c2 then -(factC r2 + factC c2 + factC (c2 - r2)) else -(factC c2 + factC r2 + factC (r2 - c2))
  | _, _ => 0

/-- The bounds are those of the code where the table is small. -/
def SmallBounds (E : Env) : Prop := ∀ rows cols, rows.length ≤ 1 ∨ (rows.length = 2 ∧ cols.length = 2) →
  E.lp rows cols = .ok (f3small rows cols) ∧ E.sp rows cols = .ok (f4small rows cols)

theorem foldl_sub_zero (cols : List ℕ) : cols.foldl (fun LP c => LP - factC c) 0 = -(cols.map lf).sum := by
  rw [foldl_sub, show factC = lf from funext factC_eq]; ring

/-- Only one path when there is one row. -/
theorem len_one_row {a : ℕ} {cols : List ℕ} {q : ℝ} (h : Len [a] cols q) : q = 0 := by
  induction cols generalizing a q with
  | nil => exact h
  | cons c cs ih =>
    obtain ⟨ps, q', hw, hq, rfl⟩ := h
    cases hw with
    | cons x hx hn hw2 =>
      generalize hk : c - x = k at hw2
      cases hw2
      have hxc : x = c := by omega
      subst hxc
      rw [ih hq]
      simp [lmult]

theorem len_no_row {cols : List ℕ} {q : ℝ} (h : Len [] cols q) : q = 0 := by
  induction cols generalizing q with
  | nil => exact h
  | cons c cs ih =>
    obtain ⟨ps, q', hw, hq, rfl⟩ := h
    cases hw
    rw [ih hq]
    simp [lmult, lf]

/-- Sum of the logs of the factorials of the cells of a table of two rows and two columns. -/
noncomputable def four (a b c x : ℕ) : ℝ := lf x + lf (a - x) + lf (c - x) + lf (b - (c - x))

theorem four_step {a b c x : ℕ} (hxa : x < a) (hxc : x < c) (hb : c - x ≤ b) :
    four a b c (x + 1) - four a b c x
      = Real.log ((x + 1 : ℕ) * (b - (c - x) + 1 : ℕ)) - Real.log ((a - x : ℕ) * (c - x : ℕ)) := by
  unfold four
  obtain ⟨u, rfl⟩ : ∃ u, a = x + 1 + u := ⟨a - (x + 1), by omega⟩
  obtain ⟨v, rfl⟩ : ∃ v, c = x + 1 + v := ⟨c - (x + 1), by omega⟩
  obtain ⟨w, rfl⟩ : ∃ w, b = v + 1 + w := ⟨b - (v + 1), by omega⟩
  rw [show x + 1 + u - (x + 1) = u by omega, show x + 1 + u - x = u + 1 by omega, show x + 1 + v - (x + 1) = v by omega,
    show x + 1 + v - x = v + 1 by omega, show v + 1 + w - v = w + 1 by omega, show v + 1 + w - (v + 1) = w by omega,
    lf_succ, lf_succ, lf_succ, lf_succ,
    Real.log_mul (by positivity) (by positivity), Real.log_mul (by positivity) (by positivity)]
  ring

theorem mode_iff {a b c x : ℕ} (hxa : x < a) (hxc : x < c) (hb : c - x ≤ b) :
    (a + 1) * (c + 1) / (a + b + 2) ≤ x → (a - x) * (c - x) ≤ (x + 1) * (b - (c - x) + 1) := by
  intro h
  rw [← Nat.lt_succ_iff, Nat.div_lt_iff_lt_mul (by omega)] at h
  obtain ⟨u, rfl⟩ : ∃ u, a = x + 1 + u := ⟨a - (x + 1), by omega⟩
  obtain ⟨v, rfl⟩ : ∃ v, c = x + 1 + v := ⟨c - (x + 1), by omega⟩
  obtain ⟨w, rfl⟩ : ∃ w, b = v + 1 + w := ⟨b - (v + 1), by omega⟩
  rw [show x + 1 + u - x = u + 1 by omega, show x + 1 + v - x = v + 1 by omega, show v + 1 + w - (v + 1) = w by omega]
  simp only [Nat.succ_eq_add_one] at h
  nlinarith

theorem mode_iff' {a b c x : ℕ} (hxa : x < a) (hxc : x < c) (hb : c - x ≤ b) :
    x < (a + 1) * (c + 1) / (a + b + 2) → (x + 1) * (b - (c - x) + 1) ≤ (a - x) * (c - x) := by
  intro h
  rw [← Nat.succ_le_iff, Nat.le_div_iff_mul_le (by omega)] at h
  obtain ⟨u, rfl⟩ : ∃ u, a = x + 1 + u := ⟨a - (x + 1), by omega⟩
  obtain ⟨v, rfl⟩ : ∃ v, c = x + 1 + v := ⟨c - (x + 1), by omega⟩
  obtain ⟨w, rfl⟩ : ∃ w, b = v + 1 + w := ⟨b - (v + 1), by omega⟩
  rw [show x + 1 + u - x = u + 1 by omega, show x + 1 + v - x = v + 1 by omega, show v + 1 + w - (v + 1) = w by omega]
  simp only [Nat.succ_eq_add_one] at h
  nlinarith

theorem four_up {a b c x : ℕ} (hxa : x < a) (hxc : x < c) (hb : c - x ≤ b) (h : (a + 1) * (c + 1) / (a + b + 2) ≤ x) :
    four a b c x ≤ four a b c (x + 1) := by
  have h1 := four_step hxa hxc hb
  have h2 := mode_iff hxa hxc hb h
  have h3 : Real.log ((a - x : ℕ) * (c - x : ℕ)) ≤ Real.log ((x + 1 : ℕ) * (b - (c - x) + 1 : ℕ)) := by
    refine Real.log_le_log ?_ (by exact_mod_cast h2)
    have : 0 < (a - x) * (c - x) := Nat.mul_pos (by omega) (by omega)
    exact_mod_cast this
  linarith

theorem four_down {a b c x : ℕ} (hxa : x < a) (hxc : x < c) (hb : c - x ≤ b) (h : x < (a + 1) * (c + 1) / (a + b + 2)) :
    four a b c (x + 1) ≤ four a b c x := by
  have h1 := four_step hxa hxc hb
  have h2 := mode_iff' hxa hxc hb h
  have h3 : Real.log ((x + 1 : ℕ) * (b - (c - x) + 1 : ℕ)) ≤ Real.log ((a - x : ℕ) * (c - x : ℕ)) :=
    Real.log_le_log (by positivity) (by exact_mod_cast h2)
  linarith

theorem mode_range {a b c : ℕ} (hc : c ≤ a + b) :
    (a + 1) * (c + 1) / (a + b + 2) ≤ a ∧ (a + 1) * (c + 1) / (a + b + 2) ≤ c ∧ c - (a + 1) * (c + 1) / (a + b + 2) ≤ b := by
  refine ⟨?_, ?_, ?_⟩
  · rw [← Nat.lt_succ_iff, Nat.div_lt_iff_lt_mul (by omega)]
    simp only [Nat.succ_eq_add_one]; nlinarith
  · rw [← Nat.lt_succ_iff, Nat.div_lt_iff_lt_mul (by omega)]
    simp only [Nat.succ_eq_add_one]; nlinarith
  · rcases Nat.le_total c b with h | h
    · exact le_trans (Nat.sub_le _ _) h
    · have : c - b ≤ (a + 1) * (c + 1) / (a + b + 2) := by
        rw [Nat.le_div_iff_mul_le (by omega)]
        obtain ⟨u, rfl⟩ : ∃ u, c = b + u := ⟨c - b, by omega⟩
        rw [Nat.add_sub_cancel_left]
        nlinarith
      omega

/-- The code's cell is the most probable one. -/
theorem four_mode {a b c : ℕ} (hc : c ≤ a + b) {x : ℕ} (hxa : x ≤ a) (hxc : x ≤ c) (hb : c - x ≤ b) :
    four a b c ((a + 1) * (c + 1) / (a + b + 2)) ≤ four a b c x := by
  obtain ⟨m1, m2, m3⟩ := mode_range hc
  rcases Nat.le_total ((a + 1) * (c + 1) / (a + b + 2)) x with h | h
  · obtain ⟨t, rfl⟩ := Nat.exists_eq_add_of_le h
    clear h
    induction t with
    | zero => exact le_refl _
    | succ t ih =>
      refine le_trans (ih (by omega) (by omega) (by omega)) ?_
      exact four_up (by omega) (by omega) (by omega) (by omega)
  · obtain ⟨t, ht⟩ := Nat.exists_eq_add_of_le h
    clear h
    induction t generalizing x with
    | zero => rw [ht]; exact le_refl _
    | succ t ih =>
      refine le_trans (ih (x := x + 1) (by omega) (by omega) (by omega) (by omega)) ?_
      exact four_down (by omega) (by omega) (by omega) (by omega)

theorem len_two {a b c d : ℕ} {q : ℝ} (hs : a + b = c + d) (h : Len [a, b] [c, d] q) :
    ∃ x, x ≤ a ∧ x ≤ c ∧ c - x ≤ b ∧ q = lf c + lf d - four a b c x := by
  obtain ⟨ps, q', hw, hq, rfl⟩ := h
  cases hw with
  | cons x hx hn hw2 =>
    generalize hk : c - x = k at hw2
    cases hw2 with
    | cons y hy hm hw3 =>
      generalize hk2 : k - y = k2 at hw3
      cases hw3
      have hy' : y = c - x := by omega
      subst hy'
      refine ⟨x, hx, hn, by omega, ?_⟩
      have h2 := len_one (l := [a - x, b - (c - x)]) (by simp; omega) hq
      rw [h2]
      unfold lmult four
      simp
      ring

theorem lf_mono {m n : ℕ} (h : m ≤ n) : lf m ≤ lf n := by
  unfold lf
  exact Real.log_le_log (by exact_mod_cast Nat.factorial_pos m) (by exact_mod_cast Nat.factorial_le h)

/-- Two numbers with a given sum: the sum of the logs is largest when one is as large
as can be. -/
theorem lf_spread {x y s t : ℕ} (h : x + y = s + t) (hx : x ≤ s) (hy : y ≤ s) : lf x + lf y ≤ lf s + lf t := by
  wlog hxy : y ≤ x generalizing x y
  · have := this (x := y) (y := x) (by omega) hy hx (by omega)
    linarith
  obtain ⟨k, rfl⟩ := Nat.exists_eq_add_of_le hx
  obtain ⟨m, rfl⟩ : ∃ m, y = t + m := ⟨y - t, by omega⟩
  have hkm : m = k := by omega
  subst hkm
  clear hx hy h
  induction m generalizing x with
  | zero => simp
  | succ m ih =>
    rw [show x + (m + 1) = (x + m) + 1 by omega, show t + (m + 1) = (t + m) + 1 by omega, lf_succ, lf_succ]
    have := ih (x := x) (by omega)
    have hlog : Real.log (t + m + 1 : ℕ) ≤ Real.log (x + m + 1 : ℕ) :=
      Real.log_le_log (by positivity) (by exact_mod_cast (by omega : t + m + 1 ≤ x + m + 1))
    linarith

/-- The sum of the logs for any table of two rows and two columns is at most what
f4xact takes for the largest. -/
theorem four_max {a b c d x : ℕ} (hs : a + b = c + d) (hab : a ≤ b) (hcd : c ≤ d) (hxa : x ≤ a) (hxc : x ≤ c) (hb : c - x ≤ b) :
    four a b c x ≤ if b ≤ d then lf b + lf d + lf (d - b) else lf d + lf b + lf (b - d) := by
  unfold four
  by_cases h : b ≤ d
  · rw [if_pos h]
    have h1 := lf_spread (x := c - x) (y := b - (c - x)) (s := b) (t := 0) (by omega) (by omega) (by omega)
    have h2 := lf_spread (x := x) (y := a - x) (s := a) (t := 0) (by omega) (by omega) (by omega)
    have h3 : lf a ≤ lf d := lf_mono (by omega)
    rw [lf_zero] at h1 h2
    have := lf_nonneg (d - b)
    linarith
  · rw [if_neg h]
    have h1 := lf_spread (x := x) (y := c - x) (s := c) (t := 0) (by omega) (by omega) (by omega)
    have h2 := lf_spread (x := a - x) (y := b - (c - x)) (s := d) (t := 0) (by omega) (by omega) (by omega)
    have h3 : lf c ≤ lf b := lf_mono (by omega)
    rw [lf_zero] at h1 h2
    have := lf_nonneg (b - d)
    linarith

theorem small_lp_one {E : Env} (h : SmallBounds E) (k : ℕ) : LpOK E.lp 1 k ∧ SpOK E.sp 1 k := by
  have key : ∀ rows cols : List ℕ, ∀ q, rows.length ≤ 1 → rows.sum = cols.sum → Len rows cols q →
      q = (cols.map lf).sum + f3small rows cols ∧ q = (cols.map lf).sum + f4small rows cols := by
    intro rows cols q hl hs hq
    match rows, hl with
    | [], _ =>
      have hz : (cols.map lf).sum = 0 := by
        refine List.sum_eq_zero (fun x hx => ?_)
        obtain ⟨a, ha, rfl⟩ := List.mem_map.mp hx
        have : a ≤ cols.sum := List.single_le_sum (fun _ _ => Nat.zero_le _) a ha
        rw [← hs] at this
        have h0 : a = 0 := by simpa using this
        rw [h0, lf_zero]
      rw [len_no_row hq, hz]
      simp [f3small, f4small]
    | [a], _ =>
      rw [len_one_row hq]
      simp only [f3small, f4small]
      rw [foldl_sub_zero]
      simp
  constructor
  · intro rows cols q v hv _ _ _ hs hr _ _ hq
    rw [(h rows cols (Or.inl hr)).1, Net.ok.injEq] at hv
    rw [← hv]
    exact (key rows cols q hr hs hq).1.le
  · intro rows cols q v hv _ _ _ hs hr _ _ hq
    rw [(h rows cols (Or.inl hr)).2, Net.ok.injEq] at hv
    rw [← hv]
    exact (key rows cols q hr hs hq).2.ge

theorem small_two {E : Env} (h : SmallBounds E) : LpOK E.lp 2 2 ∧ SpOK E.sp 2 2 := by
  obtain ⟨o1, o2⟩ := small_lp_one h 2
  constructor
  · intro rows cols q v hv h1 h2 h3 hs hr hk hk2 hq
    rcases Nat.lt_or_ge rows.length 2 with hr2 | hr2
    · exact o1 rows cols q v hv h1 h2 h3 hs (by omega) hk hk2 hq
    · have hl : rows.length = 2 := by omega
      have hl2 : cols.length = 2 := by omega
      rw [(h rows cols (Or.inr ⟨hl, hl2⟩)).1, Net.ok.injEq] at hv
      rw [← hv]
      match rows, cols, hl, hl2 with
      | [a, b], [c, d], _, _ =>
        simp only [List.sum_cons, List.sum_nil, add_zero] at hs
        obtain ⟨x, x1, x2, x3, rfl⟩ := len_two hs hq
        have hm := four_mode (a := a) (b := b) (c := c) (by omega) x1 x2 x3
        obtain ⟨m1, m2, m3⟩ := mode_range (a := a) (b := b) (c := c) (by omega)
        simp only [f3small, factC_eq, List.map_cons, List.map_nil, List.sum_cons, List.sum_nil]
        generalize (a + 1) * (c + 1) / (a + b + 2) = n at *
        unfold four at hm ⊢
        rw [show d - (a - n) = b - (c - n) by omega]
        linarith
  · intro rows cols q v hv h1 h2 h3 hs hr hk hk2 hq
    rcases Nat.lt_or_ge rows.length 2 with hr2 | hr2
    · exact o2 rows cols q v hv h1 h2 h3 hs (by omega) hk hk2 hq
    · have hl : rows.length = 2 := by omega
      have hl2 : cols.length = 2 := by omega
      rw [(h rows cols (Or.inr ⟨hl, hl2⟩)).2, Net.ok.injEq] at hv
      rw [← hv]
      match rows, cols, hl, hl2 with
      | [a, b], [c, d], _, _ =>
        simp only [List.sum_cons, List.sum_nil, add_zero] at hs
        obtain ⟨x, x1, x2, x3, rfl⟩ := len_two hs hq
        have hm := four_max (a := a) (b := b) (c := c) (d := d) hs (by simpa using h1) (by simpa using h3) x1 x2 x3
        simp only [f4small, factC_eq, List.map_cons, List.map_nil, List.sum_cons, List.sum_nil]
        by_cases hbd : b ≤ d
        · rw [if_pos hbd] at hm ⊢; linarith
        · rw [if_neg hbd] at hm ⊢; linarith

/-- **C187.** Tables of two rows and three columns, or three rows and two columns:
without error, "p value" is the probability of the tables with the same margins that
are no more probable, exactly if the units can be arranged in at most 2896000 ways
over the shorter side. -/
theorem C187_two_by_three {E : Env} (hE : EnvOrders E) (hb : SmallBounds E) {r c : ℕ} (hrc : (r = 2 ∧ c = 3) ∨ (r = 3 ∧ c = 2))
    {m : ℕ → ℕ → ℝ} {X : Table r c} {out : FOut} (hm : HoldsTable m X)
    (h : fisherExact E r c m = .ok out) (he : out.error = false) :
    (∃ p, out.pre = .num p ∧ p ≤ Real.exp tolC * tail X (prob X * Real.exp (tolC + tolC))
      ∧ Real.exp (-tolC) * tailBelow X (prob X) ≤ p)
    ∧ (ways X ≤ 2896000 → out.pre = .num (pValue X)) := by
  obtain ⟨h1, h2⟩ := small_two hb
  have hmin : min r c = 2 := by omega
  have hmax : max r c = 3 := by omega
  refine ⟨?_, fun hw => ?_⟩
  · obtain ⟨p, h4, h5, h6⟩ := C185_p_value hE (by rw [hmin, hmax]; exact h1) (by rw [hmin, hmax]; exact h2) hm h he
    rw [hmax] at h5 h6
    norm_num at h5 h6
    exact ⟨p, h4, h5, h6⟩
  · exact C185_p_value_exact hE (by rw [hmin, hmax]; exact h1) (by rw [hmin, hmax]; exact h2) hm hw h he

/-- There is only one table with one row and given margins. -/
theorem one_row_tables {c : ℕ} (X : Table 1 c) : tables (rowTot X) (colTot X) = {X} := by
  ext Y
  rw [mem_tables, mem_singleton]
  constructor
  · rintro ⟨_, h⟩
    funext i j
    have := congrFun h j
    simp only [colTot, Fin.sum_univ_one] at this
    rw [show i = 0 from Subsingleton.elim _ _]; exact this
  · rintro rfl; exact ⟨rfl, rfl⟩

/-- **C187.** One row: there is only one table with these margins; the p value is one,
up to the tolerance. -/
theorem C187_one_row {E : Env} (hE : EnvOrders E) (hb : SmallBounds E) {c : ℕ} {m : ℕ → ℕ → ℝ} {X : Table 1 c} {out : FOut}
    (hm : HoldsTable m X) (h : fisherExact E 1 c m = .ok out) (he : out.error = false) : out.pre = .num 1 := by
  have hc : 2 ≤ c := by
    obtain ⟨_, _, _, _, hc, _⟩ := fisher_inv hm h he
    exact hc
  obtain ⟨h1, h2⟩ := small_lp_one hb (c - 1)
  have hmin : min 1 c = 1 := by omega
  have hmax : max 1 c = c := by omega
  have hprob : prob X = 1 := by rw [← prob_sum X, one_row_tables, sum_singleton]
  have hw : ways X = 1 := by
    unfold ways
    rw [if_neg (by omega)]
    unfold arrangements
    rw [Fin.prod_univ_one, ← total_rows, Fin.sum_univ_one]
    exact div_self (by exact_mod_cast Nat.factorial_ne_zero _)
  have := C185_p_value_exact hE (by rw [hmin, hmax]; exact h1) (by rw [hmin, hmax]; exact h2) hm (by rw [hw]; norm_num) h he
  rw [this]
  unfold pValue tail
  rw [one_row_tables, sum_singleton, if_pos (le_refl _), hprob]

theorem len_bounds {cols : List ℕ} : ∀ {rows : List ℕ} {q : ℝ}, Len rows cols q → 0 ≤ q ∧ q ≤ (cols.map lf).sum := by
  induction cols with
  | nil => intro rows q h; rw [show q = 0 from h]; simp
  | cons c cs ih =>
    intro rows q h
    obtain ⟨ps, q', hw, hq, rfl⟩ := h
    obtain ⟨i1, i2⟩ := ih hq
    obtain ⟨b, hb, he⟩ := mult_nat (ps.map Prod.fst)
    rw [hw.props.1] at he
    have h1 : 0 ≤ lmult c (ps.map Prod.fst) := by
      rw [← Real.log_exp (lmult c (ps.map Prod.fst)), he]
      exact Real.log_nonneg (by exact_mod_cast hb)
    have h2 : lmult c (ps.map Prod.fst) ≤ lf c := by
      unfold lmult
      have : 0 ≤ ((ps.map Prod.fst).map lf).sum := by
        refine List.sum_nonneg (fun x hx => ?_)
        obtain ⟨a, _, rfl⟩ := List.mem_map.mp hx
        exact lf_nonneg a
      linarith
    rw [List.map_cons, List.sum_cons]
    exact ⟨by linarith, by linarith⟩

/-- Bounds that satisfy the hypotheses of C185 for tables of any size. -/
example : ∃ E : Env, EnvOrders E ∧ ∀ r k, LpOK E.lp r k ∧ SpOK E.sp r k := by
  refine ⟨⟨fun _ _ => .ok 0, fun _ cols => .ok (-(cols.map lf).sum), id, id⟩, ⟨fun _ => List.Perm.refl _, fun _ => List.Perm.refl _⟩, ?_⟩
  intro r k
  constructor
  · intro rows cols q v hv _ _ _ _ _ _ _ hq
    have := (len_bounds hq).2
    rw [Net.ok.injEq] at hv
    rw [← hv]
    simpa using this
  · intro rows cols q v hv _ _ _ _ _ _ _ hq
    have := (len_bounds hq).1
    rw [Net.ok.injEq] at hv
    rw [← hv]
    simpa using this

/-- The code's own bounds for small tables exist. -/
example : ∃ E : Env, EnvOrders E ∧ SmallBounds E :=
  ⟨⟨fun r c => .ok (f3small r c), fun r c => .ok (f4small r c), id, id⟩, ⟨fun _ => List.Perm.refl _, fun _ => List.Perm.refl _⟩, fun _ _ _ => ⟨rfl, rfl⟩⟩

end Apop.Fisher
