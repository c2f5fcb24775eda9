import Verif.Arms.Piece

/-! # C154: drawing from the envelope — `cumulate` and `invert` (apop_arms.c) -/

namespace Apop.Arms

open Set

/-- The highest y, apop_arms.c:400-404. -/
noncomputable def ymaxOf : List Pt → ℝ
  | [] => 0
  | a :: l => l.foldl (fun m q => if q.2 > m then q.2 else m) a.2

/-- `cum`, apop_arms.c:410-413: `q->cum = q->pl->cum + area(q)`. -/
noncomputable def cumul (y0 : ℝ) : ℝ → List Pt → List (Pt × ℝ)
  | c, a :: b :: l => (a, c) :: cumul y0 (c + area y0 a b) (b :: l)
  | c, [a] => [(a, c)]
  | _, [] => []

/-- `while(q->pl->cum > u)q = q->pl`, apop_arms.c:192, from the rightmost point (the list is from right to left); the piece found. -/
noncomputable def pick (u : ℝ) : List (Pt × ℝ) → Option ((Pt × ℝ) × (Pt × ℝ))
  | q :: l :: rest => if l.2 > u then pick u (l :: rest) else some (l, q)
  | _ => none

/-- Within the piece, apop_arms.c:201-231: the two ends and x. -/
noncomputable def place (y0 u : ℝ) (lq : (Pt × ℝ) × (Pt × ℝ)) : Pt × Pt × ℝ := (lq.1.1, lq.2.1, invX y0 lq.1.1 lq.2.1 ((u - lq.1.2) / (lq.2.2 - lq.1.2)))

/-- `invert`, apop_arms.c:179-240, over the list of nodes from left to right. `none`: no piece (the program would follow a NULL pointer). -/
noncomputable def invert (y0 prob : ℝ) (ns : List Pt) : Option (Pt × Pt × ℝ) :=
  ((cumul y0 0 ns).reverse.head?).bind fun q => (pick (prob * q.2) (cumul y0 0 ns).reverse).map (place y0 (prob * q.2))

/-! ### Specification -/

/-- The function the draws should follow, over all pieces: the piece of x is the first whose right end isn't left of x. -/
noncomputable def envelope (y0 : ℝ) : List Pt → ℝ → ℝ
  | a :: b :: l, x => if b.1 < x then envelope y0 (b :: l) x else dens y0 a b x
  | _, _ => 0

/-! ### Proofs -/

theorem ymax_le : ∀ (l : List Pt) (m : ℝ), m ≤ l.foldl (fun m q => if q.2 > m then q.2 else m) m ∧ (∀ q ∈ l, q.2 ≤ l.foldl (fun m q => if q.2 > m then q.2 else m) m) ∧
    (l.foldl (fun m q => if q.2 > m then q.2 else m) m = m ∨ ∃ q ∈ l, q.2 = l.foldl (fun m q => if q.2 > m then q.2 else m) m)
  | [], m => by simp
  | a :: l, m => by
    rw [List.foldl_cons]
    obtain ⟨h1, h2, h3⟩ := ymax_le l (if a.2 > m then a.2 else m)
    have ha : a.2 ≤ (if a.2 > m then a.2 else m) := by split_ifs with h; exact le_refl _; exact not_lt.mp h
    have hm : m ≤ (if a.2 > m then a.2 else m) := by split_ifs with h; exact h.le; exact le_refl _
    refine ⟨hm.trans h1, ?_, ?_⟩
    · intro q hq
      rcases List.mem_cons.mp hq with rfl | hq
      · exact ha.trans h1
      · exact h2 q hq
    · rcases h3 with h3 | ⟨q, hq, h3⟩
      · rw [h3]
        split_ifs with h
        · exact Or.inr ⟨a, by simp, rfl⟩
        · exact Or.inl rfl
      · exact Or.inr ⟨q, by simp [hq], h3⟩

/-- C154: the highest y of the envelope. -/
theorem C154_ymax (ns : List Pt) (h : ns ≠ []) : (∀ q ∈ ns, q.2 ≤ ymaxOf ns) ∧ ∃ q ∈ ns, q.2 = ymaxOf ns := by
  cases ns with
  | nil => exact absurd rfl h
  | cons a l =>
    obtain ⟨h1, h2, h3⟩ := ymax_le l a.2
    refine ⟨?_, ?_⟩
    · intro q hq
      rcases List.mem_cons.mp hq with rfl | hq
      · exact h1
      · exact h2 q hq
    · rcases h3 with h3 | ⟨q, hq, h3⟩
      · exact ⟨a, by simp, h3.symm⟩
      · exact ⟨q, by simp [hq], h3⟩

/-- The last piece whose left end is at most u, from left to right. -/
noncomputable def lastLe (u : ℝ) : List (Pt × ℝ) → Option ((Pt × ℝ) × (Pt × ℝ))
  | p :: q :: l => (lastLe u (q :: l)).or (if p.2 > u then none else some (p, q))
  | _ => none

theorem pick_append (u : ℝ) (q p : Pt × ℝ) : ∀ xs : List (Pt × ℝ), pick u (xs ++ [q, p]) = (pick u (xs ++ [q])).or (if p.2 > u then none else some (p, q))
  | [] => by simp [pick]
  | [x] => by
    simp only [List.cons_append, List.nil_append, pick]
    split_ifs <;> simp
  | x :: y :: xs => by
    have ih := pick_append u q p (y :: xs)
    simp only [List.cons_append, pick] at ih ⊢
    split_ifs with h
    · rw [ih, if_pos (by assumption)]
    · rw [ih, if_neg (by assumption)]
    · simp
    · simp

theorem pick_reverse (u : ℝ) : ∀ M : List (Pt × ℝ), pick u M.reverse = lastLe u M
  | [] => by simp [pick, lastLe]
  | [p] => by simp [pick, lastLe]
  | p :: q :: l => by
    have ih := pick_reverse u (q :: l)
    rw [List.reverse_cons] at ih
    rw [lastLe, ← ih, List.reverse_cons, List.reverse_cons, List.append_assoc]
    exact pick_append u q p l.reverse

theorem cumul_head (y0 c : ℝ) (a : Pt) (l : List Pt) : (cumul y0 c (a :: l)).head? = some (a, c) := by
  cases l <;> simp [cumul]

/-- Total area. -/
noncomputable def total (y0 : ℝ) : List Pt → ℝ
  | a :: b :: l => area y0 a b + total y0 (b :: l)
  | _ => 0

theorem cumul_last (y0 : ℝ) : ∀ (l : List Pt) (a : Pt) (c : ℝ), ∃ z, (cumul y0 c (a :: l)).getLast? = some (z, c + total y0 (a :: l))
  | [], a, c => ⟨a, by simp [cumul, total]⟩
  | b :: l, a, c => by
    obtain ⟨z, hz⟩ := cumul_last y0 l b (c + area y0 a b)
    refine ⟨z, ?_⟩
    rw [cumul, total]
    have hne : cumul y0 (c + area y0 a b) (b :: l) ≠ [] := by
      intro h
      have := cumul_head y0 (c + area y0 a b) b l
      rw [h] at this
      simp at this
    rw [List.getLast?_cons_of_ne_nil hne, hz, add_assoc]

theorem total_nonneg (y0 : ℝ) : ∀ (l : List Pt), l.IsChain (fun a b => a.1 ≤ b.1) → 0 ≤ total y0 l
  | [], _ => by simp [total]
  | [a], _ => by simp [total]
  | a :: b :: l, h => by
    rw [List.isChain_cons_cons] at h
    rw [total]
    exact add_nonneg (area_nonneg y0 a b h.1) (total_nonneg y0 (b :: l) h.2)

theorem lastLe_none (y0 u : ℝ) : ∀ (l : List Pt) (a : Pt) (c : ℝ), (a :: l).IsChain (fun a b => a.1 ≤ b.1) → u < c → lastLe u (cumul y0 c (a :: l)) = none
  | [], a, c, _, _ => by simp [cumul, lastLe]
  | b :: l, a, c, h, hu => by
    rw [List.isChain_cons_cons] at h
    have ih := lastLe_none y0 u l b (c + area y0 a b) h.2 (by have := area_nonneg y0 a b h.1; linarith)
    rw [cumul]
    cases hc : cumul y0 (c + area y0 a b) (b :: l) with
    | nil => simp [lastLe]
    | cons z m => rw [lastLe, ← hc, ih, if_pos hu]; rfl

/-- The piece found. -/
theorem lastLe_cumul (y0 u : ℝ) : ∀ (l : List Pt) (a b : Pt) (c : ℝ), (a :: b :: l).IsChain (fun a b => a.1 ≤ b.1) → c ≤ u → u < c + total y0 (a :: b :: l) →
    ∃ (pre post : List Pt) (p q : Pt), a :: b :: l = pre ++ p :: q :: post ∧ lastLe u (cumul y0 c (a :: b :: l)) = some ((p, c + total y0 (pre ++ [p])), (q, c + total y0 (pre ++ [p]) + area y0 p q)) ∧
      c + total y0 (pre ++ [p]) ≤ u ∧ u < c + total y0 (pre ++ [p]) + area y0 p q
  | [], a, b, c, hch, h1, h2 => by
    refine ⟨[], [], a, b, rfl, ?_, ?_, ?_⟩
    · simp [cumul, lastLe, total, not_lt.mpr h1]
    · simpa [total] using h1
    · simpa [total] using h2
  | d :: l, a, b, c, hch, h1, h2 => by
    rw [List.isChain_cons_cons] at hch
    by_cases hc : c + area y0 a b ≤ u
    · obtain ⟨pre, post, p, q, e1, e2, e3, e4⟩ := lastLe_cumul y0 u l b d (c + area y0 a b) hch.2 hc (by rw [total] at h2; linarith)
      have e5 : total y0 (a :: pre ++ [p]) = area y0 a b + total y0 (pre ++ [p]) := by
        cases pre with
        | nil =>
          simp only [List.nil_append, List.cons.injEq] at e1
          rw [← e1.1]
          simp [total]
        | cons z pre =>
          simp only [List.cons_append, List.cons.injEq] at e1
          rw [← e1.1]
          simp [total]
      refine ⟨a :: pre, post, p, q, by rw [e1]; rfl, ?_, ?_, ?_⟩
      · rw [cumul, cumul, lastLe]
        rw [cumul] at e2
        rw [e2, e5, Option.some_or]
        simp only [add_assoc]
      · rw [e5]; linarith
      · rw [e5]; linarith
    · refine ⟨[], d :: l, a, b, rfl, ?_, ?_, ?_⟩
      · have hn := lastLe_none y0 u (d :: l) b (c + area y0 a b) hch.2 (not_le.mp hc)
        rw [cumul] at hn
        rw [cumul, cumul, lastLe, hn, if_neg (not_lt.mpr h1)]
        simp [total]
      · simpa [total] using h1
      · simpa [total] using not_le.mp hc

/-! ### Integrals -/

theorem env_int_left (y0 : ℝ) (a b : Pt) (l : List Pt) (t : ℝ) (h : a.1 ≤ t) (ht : t ≤ b.1) : ∫ x in a.1..t, envelope y0 (a :: b :: l) x = ∫ x in a.1..t, dens y0 a b x := by
  apply intervalIntegral.integral_congr_ae
  filter_upwards with x hx
  rw [uIoc_of_le h] at hx
  rw [envelope, if_neg (not_lt.mpr (hx.2.trans ht))]

theorem env_int_right (y0 : ℝ) (a b : Pt) (l : List Pt) (t : ℝ) (h : b.1 ≤ t) : ∫ x in b.1..t, envelope y0 (a :: b :: l) x = ∫ x in b.1..t, envelope y0 (b :: l) x := by
  apply intervalIntegral.integral_congr_ae
  filter_upwards with x hx
  rw [uIoc_of_le h] at hx
  rw [envelope, if_pos hx.1]

theorem env_meas (y0 : ℝ) : ∀ l : List Pt, Measurable (envelope y0 l)
  | [] => by
    have : envelope y0 [] = fun _ => 0 := by funext x; simp [envelope]
    rw [this]; exact measurable_const
  | [a] => by
    have : envelope y0 [a] = fun _ => 0 := by funext x; simp [envelope]
    rw [this]; exact measurable_const
  | a :: b :: l => by
    have : envelope y0 (a :: b :: l) = fun x => if b.1 < x then envelope y0 (b :: l) x else dens y0 a b x := by funext x; rw [envelope]
    rw [this]
    exact Measurable.ite measurableSet_Ioi (env_meas y0 (b :: l)) (dens_continuous y0 a b).measurable

theorem env_integrable (y0 : ℝ) : ∀ (l : List Pt) (a : Pt), (a :: l).IsChain (fun a b => a.1 ≤ b.1) → ∀ t, a.1 ≤ t → IntervalIntegrable (envelope y0 (a :: l)) MeasureTheory.volume a.1 t
  | [], a, _, t, _ => by
    have : envelope y0 [a] = fun _ => 0 := by funext x; simp [envelope]
    rw [this]; exact intervalIntegrable_const
  | b :: l, a, h, t, ht => by
    rw [List.isChain_cons_cons] at h
    have h1 : ∀ s, a.1 ≤ s → s ≤ b.1 → IntervalIntegrable (envelope y0 (a :: b :: l)) MeasureTheory.volume a.1 s := fun s hs hsb => by
      refine ((dens_continuous y0 a b).intervalIntegrable a.1 s).congr_ae ?_
      rw [Filter.EventuallyEq, MeasureTheory.ae_restrict_iff' measurableSet_uIoc]
      filter_upwards with x hx
      rw [uIoc_of_le hs] at hx
      rw [envelope, if_neg (not_lt.mpr (hx.2.trans hsb))]
    rcases le_total t b.1 with htb | htb
    · exact h1 t ht htb
    · refine (h1 b.1 h.1 (le_refl _)).trans ?_
      refine (env_integrable y0 l b h.2 t htb).congr_ae ?_
      rw [Filter.EventuallyEq, MeasureTheory.ae_restrict_iff' measurableSet_uIoc]
      filter_upwards with x hx
      rw [uIoc_of_le htb] at hx
      rw [envelope, if_pos hx.1]

/-- The integral up to a point of a piece. -/
theorem env_int (y0 : ℝ) : ∀ (pre : List Pt) (a p q : Pt) (post : List Pt), (pre ++ p :: q :: post).head? = some a → (pre ++ p :: q :: post).IsChain (fun a b => a.1 ≤ b.1) → (∀ d ∈ pre ++ p :: q :: post, Near y0 d) →
    ∀ t, p.1 ≤ t → t ≤ q.1 → a.1 ≤ p.1 ∧ ∫ x in a.1..t, envelope y0 (pre ++ p :: q :: post) x = total y0 (pre ++ [p]) + ∫ x in p.1..t, dens y0 p q x
  | [], a, p, q, post, ha, hch, hn, t, h1, h2 => by
    have : a = p := by simpa using ha.symm
    subst this
    refine ⟨le_refl _, ?_⟩
    rw [List.nil_append, env_int_left y0 a q post t h1 h2]
    simp [total]
  | z :: pre, a, p, q, post, ha, hch, hn, t, h1, h2 => by
    have : a = z := by simpa using ha.symm
    subst this
    obtain ⟨b, m, hbm⟩ : ∃ b m, pre ++ p :: q :: post = b :: m := by cases pre <;> exact ⟨_, _, rfl⟩
    have hch' := hch
    rw [List.cons_append, hbm, List.isChain_cons_cons] at hch'
    obtain ⟨i1, i2⟩ := env_int y0 pre b p q post (by rw [hbm]; rfl) (by rw [hbm]; exact hch'.2) (fun d hd => hn d (by simp only [List.cons_append]; exact List.mem_cons_of_mem _ hd)) t h1 h2
    refine ⟨hch'.1.trans i1, ?_⟩
    have hbn : Near y0 b := hn b (by rw [List.cons_append, hbm]; simp)
    have han : Near y0 a := hn a (by simp)
    have e5 : total y0 (a :: pre ++ [p]) = area y0 a b + total y0 (pre ++ [p]) := by
      cases pre with
      | nil =>
        simp only [List.nil_append, List.cons.injEq] at hbm
        rw [← hbm.1]
        simp [total]
      | cons y pre =>
        simp only [List.cons_append, List.cons.injEq] at hbm
        rw [← hbm.1]
        simp [total]
    rw [e5, List.cons_append, hbm, ← intervalIntegral.integral_add_adjacent_intervals (b := b.1), env_int_left y0 a b m b.1 hch'.1 (le_refl _), env_int_right y0 a b m t (i1.trans h1), ← area_eq y0 a b hch'.1 han hbn, ← hbm, i2]
    · ring
    · exact env_integrable y0 (b :: m) a (by rw [List.isChain_cons_cons]; exact hch') b.1 hch'.1
    · refine (env_integrable y0 m b hch'.2 t (i1.trans h1)).congr_ae ?_
      rw [Filter.EventuallyEq, MeasureTheory.ae_restrict_iff' measurableSet_uIoc]
      filter_upwards with x hx
      rw [uIoc_of_le (i1.trans h1)] at hx
      rw [envelope, if_pos hx.1]

/-- The total area is the integral over everything. -/
theorem env_total (y0 : ℝ) : ∀ (l : List Pt) (a z : Pt), (a :: l).getLast? = some z → (a :: l).IsChain (fun a b => a.1 ≤ b.1) → (∀ d ∈ a :: l, Near y0 d) → a.1 ≤ z.1 ∧ ∫ x in a.1..z.1, envelope y0 (a :: l) x = total y0 (a :: l)
  | [], a, z, hz, _, _ => by
    have : z = a := by simpa using hz.symm
    subst this
    simp [total]
  | b :: l, a, z, hz, h, hn => by
    have h' := h
    rw [List.isChain_cons_cons] at h'
    obtain ⟨i1, i2⟩ := env_total y0 l b z (by rwa [List.getLast?_cons_cons] at hz) h'.2 (fun d hd => hn d (List.mem_cons_of_mem _ hd))
    refine ⟨h'.1.trans i1, ?_⟩
    rw [← intervalIntegral.integral_add_adjacent_intervals (b := b.1), env_int_left y0 a b l b.1 h'.1 (le_refl _), env_int_right y0 a b l z.1 i1, i2, ← area_eq y0 a b h'.1 (hn a (by simp)) (hn b (by simp)), total]
    · exact env_integrable y0 (b :: l) a h b.1 h'.1
    · refine (env_integrable y0 l b h'.2 z.1 i1).congr_ae ?_
      rw [Filter.EventuallyEq, MeasureTheory.ae_restrict_iff' measurableSet_uIoc]
      filter_upwards with x hx
      rw [uIoc_of_le i1] at hx
      rw [envelope, if_pos hx.1]

end Apop.Arms
