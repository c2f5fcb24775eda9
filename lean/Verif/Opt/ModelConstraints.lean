import Verif.Opt.LinearConstraint

/-! # C174: the constraints of the models (model/*.c, constraint methods)

What the constraint methods of the distributions do to parameters, including what the scratch vector of `apop_linear_constraint`, which all models share, does to them. -/

namespace Apop.LinCon
open Classical
variable {n : ℕ}

/-! ### The models -/

/-- `s x_i ≥ k` with `s` plus or minus one. -/
structure Ax (n : ℕ) where
  i : Fin n
  up : Bool
  k : ℝ

/-- The sign. -/
def Ax.s (a : Ax n) : ℝ := if a.up then -1 else 1

/-- The row of the constraint set. -/
def Ax.con (a : Ax n) : Con n := ⟨a.k, Pi.single a.i a.s⟩

/-- `x_i ≥ k`. -/
def atLeast (i : Fin n) (k : ℝ) : Ax n := ⟨i, false, k⟩
/-- `-x_i ≥ -k`. -/
def atMost (i : Fin n) (k : ℝ) : Ax n := ⟨i, true, -k⟩

/-- `positive_sigma_constraint` (Normal, Lognormal), model/apop_normal.c:30-34. -/
def normalCon : List (Con 2) := [(atLeast 1 0).con]
/-- `yule_constraint`, model/apop_yule.c:23-28, and `zipf_constraint`, model/apop_zipf.c:24-29. -/
def zipfCon : List (Con 1) := [(atLeast 0 1).con]
/-- The default constraint on one parameter, of the Poisson (model/apop_poisson.c:61-64) and the Exponential (model/apop_exponential.c:25-28). -/
def oneCon : List (Con 1) := positive 1
/-- `bernoulli_constraint`, model/apop_bernoulli.c:42-47. -/
def bernoulliCon : List (Con 1) := [(atLeast 0 0).con, (atMost 0 1).con]
/-- `apop_t_dist_constraint`, model/apop_t.c:58-64. -/
noncomputable def tAx : List (Ax 3) := [atLeast 1 0, atLeast 2 (9 / 10)]
/-- `multinomial_constraint` (Multinomial, Binomial), model/apop_multinomial.c:66-85: first the lower bounds of all, then the upper ones of all but the first. -/
def multinomialAx : (n : ℕ) → List (Ax n)
  | 0 => []
  | n + 1 => (List.ofFn fun i : Fin (n + 1) => atLeast i 0) ++ List.ofFn fun i : Fin n => atMost i.succ 1

/-- The constraints of the Beta, Gamma and Dirichlet are the default `positive n`, with margins of 1e-4, 1e-5 and 1e-4: model/apop_beta.c:77-80, model/apop_gamma.c:23-26, model/apop_dirichlet.c:40-43. -/
noncomputable def betaMargin : ℝ := 1 / 10000
noncomputable def gammaMargin : ℝ := 1 / 100000
/-- That of Yule, Zipf and Poisson, and of the Bernoulli and Exponential; of the Normal. -/
noncomputable def bernoulliMargin : ℝ := 1 / 1000
noncomputable def normalMargin : ℝ := 1 / 100000

/-! ### Bounds on single elements without margin -/

theorem s_sq (a : Ax n) : a.s * a.s = 1 := by unfold Ax.s; split <;> norm_num

theorem mag_ax (a : Ax n) : magnitude a.con.b = 1 := by
  simp [magnitude, Ax.con, s_sq]

/-- The point moved to the border. -/
def Ax.put (a : Ax n) (x : V n) : V n := Function.update x a.i (a.s * a.k)

theorem nearest_ax (v : V n) (a : Ax n) : nearest v a.con = some (a.put v) := by
  have hm := mag_ax a
  simp only [nearest, hm, one_ne_zero, if_false, Option.some.injEq]
  funext j
  by_cases h : j = a.i
  · subst h
    simp only [Ax.con, Ax.put, Function.update_self, Pi.single_eq_same, single_dotProduct, div_one]
    linear_combination (- v a.i) * s_sq a
  · simp [Ax.con, Ax.put, h]

theorem binds_ax (v : V n) (a : Ax n) (m : ℝ) : binds v a.con m ↔ a.s * v a.i < a.k + m := by
  simp [binds, Ax.con, mul_comm]

theorem trig_ax {a o : Ax n} (h : a.i ≠ o.i) (x : ℝ) : trigBit a.con.b o.con.b x = some x := by
  have hc : costheta a.con.b o.con.b = 0 := by simp [costheta, Ax.con, h]
  unfold trigBit
  rw [hc]
  simp [mag_ax]

theorem adapt_ax {a o : Ax n} (h : a.i ≠ o.i) (p : V n) (hp : a.s * p a.i ≤ a.k) : adapt a.con o.con p = some (o.put (a.put p)) := by
  unfold adapt
  simp only [nearest_ax, Option.bind_some]
  have hd : dist (o.put p) (a.put (o.put p)) = a.k - a.s * p a.i := by
    unfold Ax.put
    rw [dist_update, Function.update_of_ne h]
    have : a.s * a.k - p a.i = a.s * (a.k - a.s * p a.i) := by linear_combination (p a.i) * s_sq a
    rw [abs_sub_comm, this, abs_mul]
    have hs : |a.s| = 1 := by unfold Ax.s; split <;> simp
    rw [hs, one_mul, abs_of_nonneg (by linarith)]
  rw [hd, trig_ax h, Option.bind_some]
  have e : addFix p a.con (a.k - a.s * p a.i) = a.put p := by
    funext l
    by_cases hl : l = a.i
    · subst hl
      simp only [addFix, mag_ax]
      simp only [Ax.con, Pi.single_eq_same, Ax.put, Function.update_self]
      linear_combination (-p a.i) * s_sq a
    · simp [addFix, Ax.con, Ax.put, hl]
  rw [e]

/-- Bounds that contradict each other nowhere: at the border of one, every other bound on the same element is met. -/
def Sep (l : List (Ax n)) : Prop := l.Nodup ∧ ∀ a ∈ l, ∀ b ∈ l, a ≠ b → a.i = b.i → b.k ≤ b.s * (a.s * a.k)

/-- The bound on element `j` that `beta` does not meet, if any. -/
noncomputable def broken (l : List (Ax n)) (beta : V n) (j : Fin n) : Option (Ax n) := l.find? fun a => decide (a.i = j ∧ a.s * beta j < a.k)

/-- Each element moved to the bound that it does not meet. -/
noncomputable def clamp (l : List (Ax n)) (beta : V n) : V n := fun j => ((broken l beta j).map fun a => a.s * a.k).getD (beta j)

theorem broken_some {l : List (Ax n)} {beta : V n} {j : Fin n} {a : Ax n} (h : broken l beta j = some a) : a ∈ l ∧ a.i = j ∧ a.s * beta j < a.k := by
  have h1 := List.mem_of_find?_eq_some h
  have h2 := List.find?_some h
  exact ⟨h1, by simpa using h2⟩

theorem broken_none {l : List (Ax n)} {beta : V n} {j : Fin n} (h : broken l beta j = none) : ∀ a ∈ l, a.i = j → a.k ≤ a.s * beta j := by
  intro a ha hj
  have := List.find?_eq_none.1 h a ha
  simp only [decide_eq_true_eq, not_and, not_lt] at this
  exact this hj

theorem sign_cases (a : Ax n) : a.s = 1 ∨ a.s = -1 := by unfold Ax.s; split <;> simp

/-- No more than one bound on an element is broken. -/
theorem broken_unique {l : List (Ax n)} (hl : Sep l) {beta : V n} {a b : Ax n} (ha : a ∈ l) (hb : b ∈ l) (hi : a.i = b.i) (h1 : a.s * beta a.i < a.k) (h2 : b.s * beta b.i < b.k) : a = b := by
  by_contra hne
  have e1 := hl.2 a ha b hb hne hi
  have e2 := hl.2 b hb a ha (Ne.symm hne) hi.symm
  rw [← hi] at h2
  rcases sign_cases a with sa | sa <;> rcases sign_cases b with sb | sb
  · rw [sa, sb] at e1 e2
    apply hne
    have hk : a.k = b.k := by linarith
    have hu : a.up = b.up := by
      unfold Ax.s at sa sb
      cases h : a.up <;> cases h' : b.up <;> simp [h, h'] at sa sb ⊢ <;> linarith
    cases a; cases b
    simp_all
  · rw [sa] at h1 e1 e2; rw [sb] at h2 e1 e2; linarith
  · rw [sa] at h1 e1 e2; rw [sb] at h2 e1 e2; linarith
  · rw [sa, sb] at e1 e2
    apply hne
    have hk : a.k = b.k := by linarith
    have hu : a.up = b.up := by
      unfold Ax.s at sa sb
      cases h : a.up <;> cases h' : b.up <;> simp [h, h'] at sa sb ⊢ <;> linarith
    cases a; cases b
    simp_all

theorem broken_of {l : List (Ax n)} (hl : Sep l) {beta : V n} {a : Ax n} (ha : a ∈ l) (h : a.s * beta a.i < a.k) : broken l beta a.i = some a := by
  cases hb : broken l beta a.i with
  | none =>
    have := broken_none hb a ha rfl
    linarith
  | some b =>
    obtain ⟨h1, h2, h3⟩ := broken_some hb
    congr 1
    exact broken_unique hl h1 ha h2 (by rw [h2]; exact h3) h

theorem clamp_meets {l : List (Ax n)} (hl : Sep l) (beta : V n) : Meets (clamp l beta) (l.map Ax.con) 0 := by
  rw [← meets_iff]
  intro c hc
  obtain ⟨b, hb, rfl⟩ := List.mem_map.1 hc
  rw [binds_ax, not_lt, add_zero]
  unfold clamp
  cases h : broken l beta b.i with
  | none => simpa using broken_none h b hb rfl
  | some a =>
    obtain ⟨h1, h2, h3⟩ := broken_some h
    simp only [Option.map_some, Option.getD_some]
    by_cases hab : a = b
    · subst hab
      rw [← mul_assoc, s_sq, one_mul]
    · exact hl.2 a h1 b hb hab h2

/-- The point with each element moved to the bound that it breaks is the one nearest. -/
theorem clamp_nearest' {l : List (Ax n)} (hl : Sep l) (beta : V n) : NearestIn (fun x => Meets x (l.map Ax.con) 0) beta (clamp l beta) := by
  refine ⟨clamp_meets hl beta, fun y hy => ?_⟩
  have hy' : ∀ a ∈ l, a.k ≤ a.s * y a.i := by
    intro a ha
    have := (meets_iff _ _ _).2 hy a.con (List.mem_map.2 ⟨a, ha, rfl⟩)
    rw [binds_ax, not_lt, add_zero] at this
    exact this
  have key : ∀ i, (beta i - clamp l beta i) ^ 2 + (y i - clamp l beta i) ^ 2 ≤ (beta i - y i) ^ 2 := by
    intro i
    unfold clamp
    cases h : broken l beta i with
    | none => simp only [Option.map_none, Option.getD_none, sub_self]; nlinarith
    | some a =>
      obtain ⟨h1, h2, h3⟩ := broken_some h
      subst h2
      have := hy' a h1
      simp only [Option.map_some, Option.getD_some]
      rcases sign_cases a with sa | sa
      · rw [sa] at h3 this ⊢; nlinarith
      · rw [sa] at h3 this ⊢; nlinarith
  have hs := Finset.sum_le_sum fun i (_ : i ∈ Finset.univ) => key i
  rw [Finset.sum_add_distrib] at hs
  have h2 : 0 ≤ ∑ i, (y i - clamp l beta i) ^ 2 := Finset.sum_nonneg fun i _ => sq_nonneg _
  refine ⟨dist_lt_iff.2 (by linarith), fun he => ?_⟩
  rw [dist_eq_iff] at he
  have h3 : ∑ i, (y i - clamp l beta i) ^ 2 = 0 := by linarith
  funext i
  have := (Finset.sum_eq_zero_iff_of_nonneg fun i _ => sq_nonneg _).1 h3 i (Finset.mem_univ i)
  exact sub_eq_zero.1 (pow_eq_zero_iff (two_ne_zero)|>.1 this)

theorem sep_of_prefix {l : List (Ax n)} (hl : Sep l) {P : List (Ax n)} {beta : V n} {cand : V n} {o : Ax n} (hP : ∀ a ∈ P, a ∈ l) (ho : o ∈ l) (hoP : o ∉ P) (hc : cand o.i = clamp P beta o.i) :
    (if binds cand o.con 0 then o.put cand else cand) o.i = clamp (P ++ [o]) beta o.i := by
  have hbr : broken (P ++ [o]) beta o.i = (broken P beta o.i).or (if o.s * beta o.i < o.k then some o else none) := by
    unfold broken
    rw [List.find?_append]
    congr 1
    by_cases h : o.s * beta o.i < o.k <;> simp [h]
  cases h : broken P beta o.i with
  | some a =>
    obtain ⟨h1, h2, h3⟩ := broken_some h
    have hne : a ≠ o := by rintro rfl; exact hoP h1
    have hv : cand o.i = a.s * a.k := by rw [hc]; simp [clamp, h]
    have hnb : ¬ binds cand o.con 0 := by
      rw [binds_ax, not_lt, add_zero, hv]
      exact hl.2 a (hP a h1) o ho hne h2
    rw [if_neg hnb, hc]
    simp [clamp, hbr, h]
  | none =>
    have hv : cand o.i = beta o.i := by rw [hc]; simp [clamp, h]
    by_cases hb : o.s * beta o.i < o.k
    · have : binds cand o.con 0 := by rw [binds_ax, hv, add_zero]; exact hb
      rw [if_pos this]
      simp [clamp, hbr, h, hb, Ax.put]
    · have : ¬ binds cand o.con 0 := by rw [binds_ax, hv, add_zero]; exact hb
      rw [if_neg this, hv]
      simp [clamp, hbr, h, hb]

theorem clamp_append_other (P : List (Ax n)) (o : Ax n) (beta : V n) (j : Fin n) (h : o.i ≠ j) : clamp (P ++ [o]) beta j = clamp P beta j := by
  unfold clamp broken
  rw [List.find?_append]
  simp [h]

/-- The loop over the other constraints, `P` done and `R` to do. -/
theorem candLoop_ax {l : List (Ax n)} (hl : Sep l) (beta : V n) (a : Ax n) (ha : a ∈ l) (hab : a.s * beta a.i < a.k) : ∀ (R P : List (Ax n)), P ++ R = l → ∀ (pb : Option (V n)) (cand : V n),
    cand = a.put (pb.getD beta) → a.s * (pb.getD beta) a.i ≤ a.k → (∀ j, j ≠ a.i → cand j = clamp P beta j) →
    ∃ c, candLoop beta a.con 0 pb cand (R.map fun q => (decide (q = a), q.con)) = some c ∧ c a.i = a.s * a.k ∧ ∀ j, j ≠ a.i → c j = clamp l beta j
  | [], P, hPR, pb, cand, h1, _, h3 => by
    rw [List.append_nil] at hPR
    subst hPR
    exact ⟨cand, by simp [candLoop], by rw [h1]; simp [Ax.put], h3⟩
  | o :: R, P, hPR, pb, cand, h1, h2, h3 => by
    have hPR' : (P ++ [o]) ++ R = l := by rw [← hPR]; simp
    have hnd : (P ++ o :: R).Nodup := by rw [hPR]; exact hl.1
    have hoP : o ∉ P := by
      intro h
      have := List.nodup_append.1 hnd
      exact this.2.2 o h o (by simp) rfl
    have hol : o ∈ l := by rw [← hPR]; simp
    have hPl : ∀ q ∈ P, q ∈ l := fun q hq => by rw [← hPR]; simp [hq]
    have hai : cand a.i = a.s * a.k := by rw [h1]; simp [Ax.put]
    simp only [List.map_cons, candLoop]
    by_cases hoa : o = a
    · rw [if_pos (by simpa using hoa)]
      refine candLoop_ax hl beta a ha hab R (P ++ [o]) hPR' pb cand h1 h2 fun j hj => ?_
      rw [clamp_append_other P o beta j (by rw [hoa]; exact Ne.symm hj)]
      exact h3 j hj
    · rw [if_neg (by simpa using hoa)]
      by_cases hi : o.i = a.i
      · have hnb : ¬ binds cand o.con 0 := by
          rw [binds_ax, not_lt, add_zero, hi, hai]
          exact hl.2 a ha o hol (Ne.symm hoa) hi.symm
        rw [if_neg hnb]
        refine candLoop_ax hl beta a ha hab R (P ++ [o]) hPR' pb cand h1 h2 fun j hj => ?_
        rw [clamp_append_other P o beta j (by rw [hi]; exact Ne.symm hj)]
        exact h3 j hj
      · have hstep := sep_of_prefix hl hPl hol hoP (h3 o.i hi)
        by_cases hb : binds cand o.con 0
        · rw [if_pos hb] at hstep ⊢
          rw [adapt_ax (Ne.symm hi) _ h2, Option.bind_some, ← h1]
          refine candLoop_ax hl beta a ha hab R (P ++ [o]) hPR' _ _ ?_ ?_ ?_
          · rw [Option.getD_some]
            funext j
            by_cases hj : j = a.i
            · subst hj; simp [Ax.put, Ne.symm hi, hai]
            · simp [Ax.put, hj]
          · rw [Option.getD_some]
            simp only [Ax.put, Function.update_of_ne (Ne.symm hi), hai]
            rw [← mul_assoc, s_sq, one_mul]
          · intro j hj
            by_cases hjo : j = o.i
            · subst hjo; exact hstep
            · rw [clamp_append_other P o beta j (Ne.symm hjo), ← h3 j hj]
              simp [Ax.put, hjo]
        · rw [if_neg hb] at hstep ⊢
          refine candLoop_ax hl beta a ha hab R (P ++ [o]) hPR' pb cand h1 h2 fun j hj => ?_
          by_cases hjo : j = o.i
          · subst hjo; exact hstep
          · rw [clamp_append_other P o beta j (Ne.symm hjo)]
            exact h3 j hj

theorem mark_ax {l : List (Ax n)} (hl : l.Nodup) {i : ℕ} {a : Ax n} (h : l[i]? = some a) : mark i (l.map Ax.con) = l.map fun q => (decide (q = a), q.con) := by
  obtain ⟨hi, he⟩ := List.getElem?_eq_some_iff.1 h
  apply List.ext_getElem
  · simp [mark]
  · intro k h1 h2
    simp only [mark, List.getElem_mapIdx, List.getElem_map, Prod.mk.injEq, decide_eq_decide, and_true]
    have hk : k < l.length := by simpa using h2
    have e : l[k] = l[i] ↔ k = i := hl.getElem_inj_iff
    rw [he] at e
    exact e.symm

theorem candidate_ax {l : List (Ax n)} (hl : Sep l) (beta : V n) {i : ℕ} {a : Ax n} (h : l[i]? = some a) (hb : binds beta a.con 0) : candidate beta (l.map Ax.con) i a.con 0 = some (clamp l beta) := by
  have ha : a ∈ l := List.mem_of_getElem? h
  rw [binds_ax, add_zero] at hb
  unfold candidate
  rw [nearest_ax, Option.bind_some, mark_ax hl.1 h]
  obtain ⟨c, h1, h2, h3⟩ := candLoop_ax hl beta a ha hb l [] rfl none (a.put beta) rfl hb.le (by
    intro j hj
    simp [Ax.put, hj, clamp, broken])
  rw [h1]
  congr 1
  funext j
  by_cases hj : j = a.i
  · subst hj
    rw [h2]
    simp [clamp, broken_of hl ha hb]
  · exact h3 j hj

/-- **Bounds**: for any list of compatible bounds on single elements, and any scratch vector that meets them, every element out of bounds is moved to its bound and the others are left: the nearest point in bounds. The scratch vector meets them afterwards. -/
theorem box_call {l : List (Ax n)} (hl : Sep l) (s : St) (hs : ∀ p ∈ s.fetch n, Meets p (l.map Ax.con) 0) (beta : V n) :
    ∃ o, linearConstraint s (l.map Ax.con) 0 beta = some o ∧ o.beta = clamp l beta ∧ o.penalty = dist beta o.beta ∧ (o.st = ⟨n, s.fetch n⟩ ∨ o.st = ⟨n, some o.beta⟩) := by
  have hcl := clamp_nearest' hl beta
  by_cases hm : Meets beta (l.map Ax.con) 0
  · unfold linearConstraint
    rw [if_pos ((meets_iff _ _ _).2 hm)]
    have he : clamp l beta = beta := by
      have := hcl.2 beta hm
      have h0 : dist beta beta = 0 := by simp [dist]
      have h1 : 0 ≤ dist beta (clamp l beta) := Real.sqrt_nonneg _
      exact (this.2 (by linarith [this.1])).symm
    exact ⟨_, rfl, he.symm, by simp [dist], Or.inl rfl⟩
  · by_cases h1 : (l.map Ax.con).length = 1
    · obtain ⟨a, rfl⟩ : ∃ a, l = [a] := by
        rw [List.length_map] at h1
        exact List.length_eq_one_iff.1 h1
      simp only [List.map_cons, List.map_nil] at hm hcl ⊢
      have hb : binds beta a.con 0 := by
        by_contra hb
        exact hm ((meets_iff _ _ _).1 (by simpa using hb))
      have hb0 : a.con.b ≠ 0 := by
        intro h0
        have := mag_ax a
        rw [h0] at this
        simp [magnitude] at this
      obtain ⟨o, ho, hn, hp, _⟩ := C88_single s a.con hb0 beta hm
      have hst : o.st = ⟨n, s.fetch n⟩ := by
        unfold linearConstraint at ho
        rw [if_neg (by rwa [meets_iff])] at ho
        simp only [nearest_ax, Option.map_some, Option.some.injEq] at ho
        rw [← ho]
      refine ⟨o, ho, ?_, hp, Or.inl hst⟩
      have a1 := (hn.2 _ hcl.1).1
      have b1 := hcl.2 _ hn.1
      exact b1.2 (le_antisymm a1 b1.1)
    · rw [multi s _ _ _ hm h1]
      have hex : ∃ c ∈ l.map Ax.con, binds beta c 0 := by
        by_contra hne
        push Not at hne
        exact hm ((meets_iff _ _ _).1 hne)
      rw [search_const beta (clamp l beta) (l.map Ax.con) 0 (l.map Ax.con) (s.fetch n) 0 ?_ ?_ (Or.inl hex)]
      · refine ⟨_, rfl, ?_, rfl, Or.inr ?_⟩
        · simp only [addMargin_zero]
        · simp only [addMargin_zero]
      · intro j c hj hb
        rw [List.getElem?_map] at hj
        obtain ⟨a, ha, rfl⟩ := Option.map_eq_some_iff.1 hj
        rw [Nat.zero_add]
        exact candidate_ax hl beta ha hb
      · intro p hp hd
        have := hcl.2 p (hs p hp)
        exact this.2 (le_antisymm (not_lt.1 hd) this.1)

/-! ### Histories -/

/-- The state after calls with a family `C` of constraints (one list for each number of parameters) and no margin, and with any single constraint and any margin, in any order and sizes. -/
inductive ReachF (C : (n : ℕ) → List (Con n)) : St → Prop
  | start : ReachF C ⟨0, none⟩
  | call {n : ℕ} {s : St} {beta : V n} {o : Out n} : ReachF C s → linearConstraint s (C n) 0 beta = some o → ReachF C o.st
  | single {n : ℕ} {s : St} {beta : V n} {c : Con n} {m : ℝ} {o : Out n} : ReachF C s → linearConstraint s [c] m beta = some o → ReachF C o.st

theorem fetch_prop (Q : (n : ℕ) → V n → Prop) (n m : ℕ) (p : Option (V n)) (h : ∀ q ∈ p, Q n q) : ∀ q ∈ St.fetch ⟨n, p⟩ m, Q m q := by
  unfold St.fetch
  split
  · rename_i h'
    simp only at h'
    subst h'
    exact h
  · simp

theorem single_st {s : St} {beta : V n} {c : Con n} {mg : ℝ} {o : Out n} (ho : linearConstraint s [c] mg beta = some o) : o.st = ⟨n, s.fetch n⟩ := by
  unfold linearConstraint at ho
  split_ifs at ho with h
  · cases ho; rfl
  · cases hn : nearest beta c with
    | none => simp only [hn] at ho; simp at ho
    | some x => simp only [hn, Option.map_some, Option.some.injEq] at ho; rw [← ho]

theorem reachF_fetch {L : (n : ℕ) → List (Ax n)} (hL : ∀ n, Sep (L n)) {s : St} (h : ReachF (fun n => (L n).map Ax.con) s) : ∀ m, ∀ p ∈ s.fetch m, Meets p ((L m).map Ax.con) 0 := by
  induction h with
  | start => exact fun m => fetch_prop (fun k q => Meets q ((L k).map Ax.con) 0) 0 m none (by simp)
  | @call n s beta o hs ho ih =>
    intro m
    obtain ⟨o', ho', hb, _, hst⟩ := box_call (hL n) s (ih n) beta
    change linearConstraint s ((L n).map Ax.con) 0 beta = some o at ho
    rw [ho] at ho'
    cases ho'
    rcases hst with h | h
    · rw [h]; exact fetch_prop (fun k q => Meets q ((L k).map Ax.con) 0) n m _ (ih n)
    · rw [h]; refine fetch_prop (fun k q => Meets q ((L k).map Ax.con) 0) n m _ ?_
      intro q hq
      simp only [Option.mem_def, Option.some.injEq] at hq
      rw [← hq, hb]
      exact clamp_meets (hL n) beta
  | @single n s beta c mg o hs ho ih =>
    intro m
    rw [single_st ho]
    exact fetch_prop (fun k q => Meets q ((L k).map Ax.con) 0) n m _ (ih n)

theorem family_call {L : (n : ℕ) → List (Ax n)} (hL : ∀ n, Sep (L n)) {s : St} (h : ReachF (fun n => (L n).map Ax.con) s) (beta : V n) :
    ∃ o, linearConstraint s ((L n).map Ax.con) 0 beta = some o ∧ o.beta = clamp (L n) beta ∧ NearestIn (fun x => Meets x ((L n).map Ax.con) 0) beta o.beta ∧ o.penalty = dist beta o.beta := by
  obtain ⟨o, ho, hb, hp, _⟩ := box_call (hL n) s (reachF_fetch hL h n) beta
  exact ⟨o, ho, hb, by rw [hb]; exact clamp_nearest' (hL n) beta, hp⟩

/-! ### Multinomial and t -/

theorem sep_multinomial : ∀ n, Sep (multinomialAx n)
  | 0 => ⟨by simp [multinomialAx], by simp [multinomialAx]⟩
  | n + 1 => by
    constructor
    · rw [multinomialAx, List.nodup_append]
      refine ⟨?_, ?_, ?_⟩
      · rw [List.nodup_ofFn]; intro i j h; simpa [atLeast] using h
      · rw [List.nodup_ofFn]; intro i j h; simpa [atMost] using h
      · intro a ha b hb
        obtain ⟨i, rfl⟩ := (List.mem_ofFn' _ _).1 ha
        obtain ⟨j, rfl⟩ := (List.mem_ofFn' _ _).1 hb
        simp [atLeast, atMost]
    · intro a ha b hb hne hi
      rw [multinomialAx, List.mem_append] at ha hb
      rcases ha with ha | ha <;> rcases hb with hb | hb
      all_goals
        obtain ⟨i, rfl⟩ := (List.mem_ofFn' _ _).1 ha
        obtain ⟨j, rfl⟩ := (List.mem_ofFn' _ _).1 hb
        simp [atLeast, atMost, Ax.s] at hne hi ⊢

/-- The bounds of the Multinomial. -/
theorem meets_multinomial (x : V (n + 1)) : Meets x ((multinomialAx (n + 1)).map Ax.con) 0 ↔ (∀ i, 0 ≤ x i) ∧ ∀ i : Fin n, x i.succ ≤ 1 := by
  rw [← meets_iff]
  constructor
  · intro h
    constructor
    · intro i
      have := h (atLeast i 0).con (List.mem_map.2 ⟨_, by rw [multinomialAx, List.mem_append]; exact Or.inl ((List.mem_ofFn' _ _).2 ⟨i, rfl⟩), rfl⟩)
      rw [binds_ax] at this
      simpa [atLeast, Ax.s] using this
    · intro i
      have := h (atMost i.succ 1).con (List.mem_map.2 ⟨_, by rw [multinomialAx, List.mem_append]; exact Or.inr ((List.mem_ofFn' _ _).2 ⟨i, rfl⟩), rfl⟩)
      rw [binds_ax] at this
      simpa [atMost, Ax.s] using this
  · rintro ⟨h1, h2⟩ c hc
    obtain ⟨a, ha, rfl⟩ := List.mem_map.1 hc
    rw [multinomialAx, List.mem_append] at ha
    rw [binds_ax]
    rcases ha with ha | ha
    · obtain ⟨i, rfl⟩ := (List.mem_ofFn' _ _).1 ha
      simpa [atLeast, Ax.s] using h1 i
    · obtain ⟨i, rfl⟩ := (List.mem_ofFn' _ _).1 ha
      simpa [atMost, Ax.s] using h2 i

/-- **Multinomial and Binomial**: after any history of constraint calls of these (with any numbers of bins) and of the models with one constraint, the parameters are moved to the nearest point with no negative element and no share above one, and the penalty is the distance. -/
theorem C174_multinomial {s : St} (h : ReachF (fun n => (multinomialAx n).map Ax.con) s) (beta : V (n + 1)) :
    ∃ o, linearConstraint s ((multinomialAx (n + 1)).map Ax.con) 0 beta = some o ∧ NearestIn (fun x => (∀ i, 0 ≤ x i) ∧ ∀ i : Fin n, x i.succ ≤ 1) beta o.beta ∧ o.penalty = dist beta o.beta := by
  obtain ⟨o, h1, _, h3, h4⟩ := family_call sep_multinomial h beta
  refine ⟨o, h1, ?_, h4⟩
  have e : (fun x : V (n + 1) => Meets x ((multinomialAx (n + 1)).map Ax.con) 0) = fun x => (∀ i, 0 ≤ x i) ∧ ∀ i : Fin n, x i.succ ≤ 1 := by
    funext x
    exact propext (meets_multinomial x)
  rw [e] at h3
  exact h3

/-- The t's constraints, as a family (there are three parameters). -/
noncomputable def tFamily : (n : ℕ) → List (Ax n)
  | 3 => tAx
  | _ => []

theorem sep_nil : Sep ([] : List (Ax n)) := ⟨List.nodup_nil, by simp⟩

theorem sep_tAx : Sep tAx := by
  constructor
  · simp [tAx, atLeast]
  · intro a ha b hb hne hi
    simp only [tAx, List.mem_cons, List.not_mem_nil, or_false] at ha hb
    rcases ha with rfl | rfl <;> rcases hb with rfl | rfl
    · exact absurd rfl hne
    · simp [atLeast] at hi
    · simp [atLeast] at hi
    · exact absurd rfl hne

theorem sep_t : ∀ n, Sep (tFamily n)
  | 0 => sep_nil
  | 1 => sep_nil
  | 2 => sep_nil
  | 3 => sep_tAx
  | _ + 4 => sep_nil

/-- **The t distribution**: after any history of its own constraint calls and of those of the models with one constraint, the parameters (μ, σ, df) are moved to the nearest point with σ ≥ 0 and df ≥ .9. -/
theorem C174_t {s : St} (h : ReachF (fun n => (tFamily n).map Ax.con) s) (beta : V 3) :
    ∃ o, linearConstraint s (tAx.map Ax.con) 0 beta = some o ∧ NearestIn (fun x => 0 ≤ x 1 ∧ 9 / 10 ≤ x 2) beta o.beta ∧ o.penalty = dist beta o.beta := by
  obtain ⟨o, h1, _, h3, h4⟩ := family_call sep_t h beta
  refine ⟨o, h1, ?_, h4⟩
  have e : (fun x : V 3 => Meets x ((tFamily 3).map Ax.con) 0) = fun x => 0 ≤ x 1 ∧ 9 / 10 ≤ x 2 := by
    funext x
    rw [← meets_iff]
    have : (tFamily 3).map Ax.con = [(atLeast 1 0).con, (atLeast 2 (9 / 10)).con] := rfl
    rw [this]
    simp only [List.mem_cons, List.not_mem_nil, or_false, forall_eq_or_imp, forall_eq, binds_ax]
    simp [atLeast, Ax.s]
  rw [e] at h3
  exact h3

/-- A σ of zero is let through, though the density is then undefined. -/
theorem C174_t_zero_refuted (s : St) : ∃ st, linearConstraint s (tAx.map Ax.con) 0 ![0, 0, 1] = some ⟨0, ![0, 0, 1], st⟩ := by
  apply C88_met
  rw [← meets_iff]
  simp only [tAx, List.map_cons, List.map_nil, List.mem_cons, List.not_mem_nil, or_false, forall_eq_or_imp, forall_eq, binds_ax]
  have h2 : (![0, 0, 1] : V 3) 2 = 1 := rfl
  have h1 : (![0, 0, 1] : V 3) 1 = 0 := rfl
  simp only [atLeast, Ax.s, h1, h2]
  norm_num

/-! ### Models with one constraint -/

/-- **One constraint**: the Normal and Lognormal are moved to σ ≥ 1e-5 with μ as it is, Yule and Zipf to b ≥ 1 + 1e-4, Poisson and Exponential to a parameter no less than the margin: to the nearest such point, whatever was called before. -/
theorem C174_single (s : St) :
    (∀ beta : V 2, ∃ o, linearConstraint s normalCon normalMargin beta = some o ∧ o.beta = ![beta 0, max (beta 1) normalMargin] ∧ o.penalty = dist beta o.beta) ∧
    (∀ (m : ℝ) (beta : V 1), ∃ o, linearConstraint s zipfCon m beta = some o ∧ (o.beta = fun _ => max (beta 0) (1 + m)) ∧ o.penalty = dist beta o.beta) ∧
    (∀ (m : ℝ) (beta : V 1), ∃ o, linearConstraint s oneCon m beta = some o ∧ (o.beta = fun _ => max (beta 0) m) ∧ o.penalty = dist beta o.beta) := by
  have key : ∀ {n : ℕ} (i : Fin n) (k m : ℝ) (beta : V n), ∃ o, linearConstraint s [(atLeast i k).con] m beta = some o ∧ o.beta = Function.update beta i (max (beta i) (k + m)) ∧ o.penalty = dist beta o.beta := by
    intro n i k m beta
    by_cases hm : Meets beta [(atLeast i k).con] m
    · obtain ⟨st, hst⟩ := C88_met s _ m beta hm
      have hk : k + m ≤ beta i := by
        have := (meets_iff _ _ _).2 hm (atLeast i k).con (by simp)
        rw [binds_ax] at this
        simpa [atLeast, Ax.s] using this
      refine ⟨_, hst, ?_, by simp [dist]⟩
      simp [max_eq_left hk]
    · have hb : binds beta (atLeast i k).con m := by
        by_contra hb
        exact hm ((meets_iff _ _ _).1 (by simpa using hb))
      have hb0 : (atLeast i k).con.b ≠ 0 := by
        intro h0
        have := mag_ax (atLeast i k)
        rw [h0] at this
        simp [magnitude] at this
      obtain ⟨st, hst⟩ := single_value s (atLeast i k).con hb0 m beta hb
      refine ⟨_, hst, ?_, rfl⟩
      rw [binds_ax] at hb
      simp only [atLeast, Ax.s, Bool.false_eq_true, if_false, one_mul] at hb
      funext j
      simp only [mag_ax]
      by_cases hj : j = i
      · subst hj
        rw [Function.update_self, max_eq_right hb.le]
        simp [Ax.con, atLeast, Ax.s, Pi.single_apply]
        ring
      · rw [Function.update_of_ne hj]
        simp [Ax.con, atLeast, hj]
  refine ⟨fun beta => ?_, fun m beta => ?_, fun m beta => ?_⟩
  · obtain ⟨o, h1, h2, h3⟩ := key (1 : Fin 2) 0 normalMargin beta
    refine ⟨o, h1, ?_, h3⟩
    rw [h2]
    funext j
    fin_cases j <;> simp [Function.update]
  · obtain ⟨o, h1, h2, h3⟩ := key (0 : Fin 1) 1 m beta
    refine ⟨o, h1, ?_, h3⟩
    rw [h2]
    funext j
    rw [Subsingleton.elim j 0]
    simp
  · obtain ⟨o, h1, h2, h3⟩ := key (0 : Fin 1) 0 m beta
    have e : oneCon = [(atLeast (0 : Fin 1) 0).con] := by
      rw [oneCon, positive_eq]
      rfl
    rw [e]
    refine ⟨o, h1, ?_, h3⟩
    rw [h2]
    funext j
    rw [Subsingleton.elim j 0]
    simp

/-! ### Bernoulli -/

/-- The state after calls of the Bernoulli's constraint and of those with one constraint. -/
inductive ReachB : St → Prop
  | start : ReachB ⟨0, none⟩
  | call {s : St} {beta : V 1} {o : Out 1} : ReachB s → linearConstraint s bernoulliCon bernoulliMargin beta = some o → ReachB o.st
  | single {n : ℕ} {s : St} {beta : V n} {c : Con n} {m : ℝ} {o : Out n} : ReachB s → linearConstraint s [c] m beta = some o → ReachB o.st

theorem dist_one (a b : V 1) : dist a b = |a 0 - b 0| := by simp [dist, Real.sqrt_sq_eq_abs]

theorem bern_binds (x : V 1) (m : ℝ) : (binds x (atLeast (0 : Fin 1) 0).con m ↔ x 0 < m) ∧ (binds x (atMost (0 : Fin 1) 1).con m ↔ 1 - m < x 0) := by
  rw [binds_ax, binds_ax]
  constructor
  · simp [atLeast, Ax.s]
  · simp only [atMost, Ax.s, if_true]
    constructor <;> intro h <;> linarith

theorem bern_put : (∀ x : V 1, (atLeast (0 : Fin 1) 0).put x = fun _ => 0) ∧ ∀ x : V 1, (atMost (0 : Fin 1) 1).put x = fun _ => 1 := by
  constructor <;> intro x <;> funext j <;> rw [Subsingleton.elim j 0]
  · simp [Ax.put, atLeast]
  · simp [Ax.put, atMost, Ax.s]

/-- What a call does, if the scratch vector holds nothing, zero or one. -/
theorem bern_call (s : St) (hs : ∀ p ∈ s.fetch 1, p 0 = 0 ∨ p 0 = 1) (beta : V 1) : ∃ o, linearConstraint s bernoulliCon bernoulliMargin beta = some o ∧
    (o.beta = fun _ => max bernoulliMargin (min (beta 0) (1 - bernoulliMargin))) ∧ o.penalty = dist beta o.beta ∧ (o.st = ⟨1, s.fetch 1⟩ ∨ ∃ p : V 1, o.st = ⟨1, some p⟩ ∧ (p 0 = 0 ∨ p 0 = 1)) := by
  have hmg : bernoulliMargin = 1 / 1000 := rfl
  obtain ⟨b1, b2⟩ := bern_binds beta bernoulliMargin
  have hn1 : nearest beta (atLeast (0 : Fin 1) 0).con = some fun _ => 0 := by rw [nearest_ax, bern_put.1]
  have hn2 : nearest beta (atMost (0 : Fin 1) 1).con = some fun _ => 1 := by rw [nearest_ax, bern_put.2]
  have hc1 : candidate beta bernoulliCon 0 (atLeast (0 : Fin 1) 0).con bernoulliMargin = some fun _ => 0 := by
    unfold candidate
    rw [hn1, Option.bind_some]
    have : ¬ binds (fun _ => 0 : V 1) (atMost (0 : Fin 1) 1).con bernoulliMargin := by
      rw [(bern_binds _ _).2, hmg]; norm_num
    simp [mark, bernoulliCon, candLoop, this]
  have hc2 : candidate beta bernoulliCon 1 (atMost (0 : Fin 1) 1).con bernoulliMargin = some fun _ => 1 := by
    unfold candidate
    rw [hn2, Option.bind_some]
    have : ¬ binds (fun _ => 1 : V 1) (atLeast (0 : Fin 1) 0).con bernoulliMargin := by
      rw [(bern_binds _ _).1, hmg]; norm_num
    simp [mark, bernoulliCon, candLoop, this]
  have hmeets : Meets beta bernoulliCon bernoulliMargin ↔ bernoulliMargin ≤ beta 0 ∧ beta 0 ≤ 1 - bernoulliMargin := by
    rw [← meets_iff]
    simp only [bernoulliCon, List.mem_cons, List.not_mem_nil, or_false, forall_eq_or_imp, forall_eq, b1, b2, not_lt]
  by_cases hm : Meets beta bernoulliCon bernoulliMargin
  · obtain ⟨h1, h2⟩ := hmeets.1 hm
    refine ⟨⟨0, beta, ⟨1, s.fetch 1⟩⟩, ?_, ?_, by simp [dist], Or.inl rfl⟩
    · unfold linearConstraint
      rw [if_pos ((meets_iff _ _ _).2 hm)]
    · funext j
      rw [Subsingleton.elim j 0, min_eq_left h2, max_eq_right h1]
  · have hmag1 := mag_ax (atLeast (0 : Fin 1) 0)
    have hmag2 := mag_ax (atMost (0 : Fin 1) 1)
    rw [multi s _ _ _ hm (by simp [bernoulliCon])]
    rcases lt_or_ge (beta 0) bernoulliMargin with hlo | hlo
    · have hb1 := b1.2 hlo
      have hb2 : ¬ binds beta (atMost (0 : Fin 1) 1).con bernoulliMargin := by
        rw [b2, hmg]; rw [hmg] at hlo; linarith
      have hsearch : search beta bernoulliCon bernoulliMargin (s.fetch 1) 0 bernoulliCon = some (some fun _ => 0) := by
        have hunf : ∀ cl, search beta bernoulliCon bernoulliMargin cl 0 [(atLeast (0 : Fin 1) 0).con, (atMost (0 : Fin 1) 1).con] = some (if nearer beta (fun _ => 0) cl then some fun _ => 0 else cl) := by
          intro cl
          simp only [search, if_pos hb1, hc1, Option.bind_some, if_neg hb2]
        rw [show search beta bernoulliCon bernoulliMargin (s.fetch 1) 0 bernoulliCon = _ from hunf _]
        congr 1
        split_ifs with hn
        · rfl
        · unfold nearer at hn
          push Not at hn
          obtain ⟨p, hp, hd⟩ := hn
          rw [hp]
          congr 1
          funext j
          rw [Subsingleton.elim j 0]
          rcases hs p hp with h0 | h0
          · exact h0
          · exfalso
            rw [dist_one, dist_one, h0] at hd
            rw [hmg] at hlo
            rw [abs_of_neg (by linarith : beta 0 - 1 < 0), sub_zero] at hd
            rcases abs_cases (beta 0) with ⟨e, _⟩ | ⟨e, _⟩ <;> rw [e] at hd <;> linarith
      rw [hsearch]
      have hadd : addMargin beta bernoulliMargin (fun _ => 0) bernoulliCon = fun _ => bernoulliMargin := by
        simp only [bernoulliCon, addMargin, if_pos hb1, if_neg hb2, hmag1]
        funext j
        rw [Subsingleton.elim j 0]
        simp [Ax.con, atLeast, Ax.s]
      refine ⟨_, rfl, ?_, rfl, Or.inr ⟨_, rfl, Or.inl rfl⟩⟩
      simp only [hadd]
      funext j
      rw [max_eq_left]
      exact (min_le_left _ _).trans hlo.le
    · have hhi : 1 - bernoulliMargin < beta 0 := by
        by_contra h
        exact hm (hmeets.2 ⟨hlo, not_lt.1 h⟩)
      have hb2 := b2.2 hhi
      have hb1 : ¬ binds beta (atLeast (0 : Fin 1) 0).con bernoulliMargin := by
        rw [b1, not_lt]; exact hlo
      have hsearch : search beta bernoulliCon bernoulliMargin (s.fetch 1) 0 bernoulliCon = some (some fun _ => 1) := by
        have hunf : ∀ cl, search beta bernoulliCon bernoulliMargin cl 0 [(atLeast (0 : Fin 1) 0).con, (atMost (0 : Fin 1) 1).con] = some (if nearer beta (fun _ => 1) cl then some fun _ => 1 else cl) := by
          intro cl
          simp only [search, if_pos hb2, hc2, Option.bind_some, if_neg hb1, Nat.zero_add]
        rw [show search beta bernoulliCon bernoulliMargin (s.fetch 1) 0 bernoulliCon = _ from hunf _]
        congr 1
        split_ifs with hn
        · rfl
        · unfold nearer at hn
          push Not at hn
          obtain ⟨p, hp, hd⟩ := hn
          rw [hp]
          congr 1
          funext j
          rw [Subsingleton.elim j 0]
          rcases hs p hp with h0 | h0
          · exfalso
            rw [dist_one, dist_one, h0] at hd
            rw [hmg] at hhi
            rw [sub_zero, abs_of_pos (by linarith : 0 < beta 0)] at hd
            rcases abs_cases (beta 0 - 1) with ⟨e, _⟩ | ⟨e, _⟩ <;> rw [e] at hd <;> linarith
          · exact h0
      rw [hsearch]
      have hadd : addMargin beta bernoulliMargin (fun _ => 1) bernoulliCon = fun _ => 1 - bernoulliMargin := by
        simp only [bernoulliCon, addMargin, if_pos hb2, if_neg hb1, hmag2]
        funext j
        rw [Subsingleton.elim j 0]
        simp [Ax.con, atMost, Ax.s]
        ring
      refine ⟨_, rfl, ?_, rfl, Or.inr ⟨_, rfl, Or.inr rfl⟩⟩
      simp only [hadd]
      funext j
      rw [min_eq_right hhi.le, max_eq_right]
      rw [hmg]; norm_num

/-- **Bernoulli**: after any history of its own constraint calls and of those of the models with one constraint, p is moved into [.001, .999], to the nearest point there. -/
theorem C174_bernoulli {s : St} (h : ReachB s) (beta : V 1) : ∃ o, linearConstraint s bernoulliCon bernoulliMargin beta = some o ∧
    (o.beta = fun _ => max (1 / 1000) (min (beta 0) (999 / 1000))) ∧ o.penalty = dist beta o.beta := by
  have hinv : ∀ m, ∀ p ∈ s.fetch m, ∀ i, p i = 0 ∨ p i = 1 ∨ m ≠ 1 := by
    induction h with
    | start => exact fun m => fetch_prop (fun m p => ∀ i, p i = 0 ∨ p i = 1 ∨ m ≠ 1) 0 m none (by simp)
    | @call s beta o hs ho ih =>
      intro m
      obtain ⟨o', ho', _, _, hst⟩ := bern_call s (fun p hp => by have := ih 1 p hp 0; simpa using this) beta
      rw [ho] at ho'
      cases ho'
      rcases hst with h | ⟨p, h, hp⟩
      · rw [h]; exact fetch_prop (fun m p => ∀ i, p i = 0 ∨ p i = 1 ∨ m ≠ 1) 1 m _ (ih 1)
      · rw [h]
        refine fetch_prop (fun m p => ∀ i, p i = 0 ∨ p i = 1 ∨ m ≠ 1) 1 m _ ?_
        intro q hq i
        simp only [Option.mem_def, Option.some.injEq] at hq
        rw [← hq, Subsingleton.elim i 0]
        tauto
    | @single n s beta c mg o hs ho ih =>
      intro m
      rw [single_st ho]
      exact fetch_prop (fun m p => ∀ i, p i = 0 ∨ p i = 1 ∨ m ≠ 1) n m _ (ih n)
  obtain ⟨o, h1, h2, h3, _⟩ := bern_call s (fun p hp => by have := hinv 1 p hp 0; simpa using this) beta
  refine ⟨o, h1, ?_, h3⟩
  rw [h2]
  norm_num [bernoulliMargin]

/-! ### Positive parameters with a margin: Beta, Gamma, Dirichlet -/

theorem binds_posm (v : V n) (i : Fin n) (m : ℝ) : binds v (pos i) m ↔ v i < m := by simp [binds, pos]

/-- What the adaptation does for any point: the element of the constraint in hand is not made zero, but increased by its absolute value. -/
theorem adapt_posm {i j : Fin n} (h : i ≠ j) (p : V n) : adapt (pos i) (pos j) p = some (Function.update (Function.update p i (p i + |p i|)) j 0) := by
  have e : addFix p (pos i) |p i| = Function.update p i (p i + |p i|) := by
    funext l
    by_cases hl : l = i
    · subst hl; simp [addFix, pos, mag_single, add_comm]
    · simp [addFix, pos, hl]
  unfold adapt
  simp only [nearest_pos, Option.bind_some, dist_update, trig_pos h, Function.update_of_ne h, sub_zero, e]

/-- What is known of a candidate for `beta`: elements not below the margin as they are, the others not negative, one of all zero; and if no element is strictly between zero and the margin, all those below the margin zero. -/
structure Cand (beta : V n) (m : ℝ) (c : V n) : Prop where
  keep : ∀ k, m ≤ beta k → c k = beta k
  nonneg : ∀ k, beta k < m → 0 ≤ c k
  zero : ∃ k, c k = 0
  exact : (∀ k, beta k < m → beta k ≤ 0) → ∀ k, beta k < m → c k = 0

theorem candLoop_posm (beta : V n) (m : ℝ) (i : Fin n) (hi : beta i < m) (l : List (Bool × Fin n)) : (∀ q ∈ l, q.1 = decide (q.2 = i)) → ∀ (pb : Option (V n)) (cand : V n),
    (∀ k, m ≤ beta k → cand k = beta k) → (∀ k, beta k < m → 0 ≤ cand k ∨ (k ≠ i ∧ (false, k) ∈ l ∧ cand k = beta k)) → (∃ k, cand k = 0) →
    ((∀ k, beta k < m → beta k ≤ 0) → ∀ k, beta k < m → cand k = 0 ∨ (k ≠ i ∧ (false, k) ∈ l ∧ cand k = beta k)) →
    (pb = some cand ∨ (pb = none ∧ cand = Function.update beta i 0)) →
    ∃ c, candLoop beta (pos i) m pb cand (l.map fun q => (q.1, pos q.2)) = some c ∧ Cand beta m c := by
  induction l with
  | nil =>
    intro _ pb cand h1 h2 h3 h4 _
    refine ⟨cand, rfl, h1, fun k hk => ?_, h3, fun hx k hk => ?_⟩
    · rcases h2 k hk with h | ⟨_, h, _⟩
      · exact h
      · simp at h
    · rcases h4 hx k hk with h | ⟨_, h, _⟩
      · exact h
      · simp at h
  | cons q l ih =>
    intro hl pb cand h1 h2 h3 h4 h5
    obtain ⟨b, j⟩ := q
    have hb := hl (b, j) (by simp)
    simp only at hb
    have hl' : ∀ q ∈ l, q.1 = decide (q.2 = i) := fun q hq => hl q (by simp [hq])
    simp only [List.map_cons, candLoop]
    by_cases hji : j = i
    · subst hji
      have hb' : b = true := by simpa using hb
      subst hb'
      rw [if_pos rfl]
      refine ih hl' pb cand h1 (fun k hk => ?_) h3 (fun hx k hk => ?_) h5
      · rcases h2 k hk with h | ⟨a1, a2, a3⟩
        · exact Or.inl h
        · exact Or.inr ⟨a1, by simpa using a2, a3⟩
      · rcases h4 hx k hk with h | ⟨a1, a2, a3⟩
        · exact Or.inl h
        · exact Or.inr ⟨a1, by simpa using a2, a3⟩
    · have hb' : b = false := by simpa [hji] using hb
      subst hb'
      rw [if_neg (by simp)]
      by_cases hn : cand j < m
      · have hbj : beta j < m := by
          by_contra hc
          rw [h1 j (not_lt.1 hc)] at hn
          exact hc hn
        rw [if_pos ((binds_posm _ _ _).2 hn), adapt_posm (Ne.symm hji), Option.bind_some]
        set p := pb.getD beta with hp
        have hpk : ∀ k, k ≠ i → p k = cand k := by
          intro k hk
          rcases h5 with h5 | ⟨h5, h6⟩
          · rw [hp, h5]; rfl
          · rw [hp, h5, h6]; simp [hk]
        have hpi : (∀ k, beta k < m → beta k ≤ 0) → p i + |p i| = 0 := by
          intro hx
          rcases h5 with h5 | ⟨h5, h6⟩
          · rw [hp, h5, Option.getD_some]
            rcases h4 hx i hi with h | ⟨h, _⟩
            · rw [h]; simp
            · exact absurd rfl h
          · rw [hp, h5, Option.getD_none, abs_of_nonpos (hx i hi)]; ring
        refine ih hl' _ _ ?_ ?_ ⟨j, by simp⟩ ?_ (Or.inl rfl)
        · intro k hk
          have hkj : k ≠ j := by rintro rfl; linarith
          have hki : k ≠ i := by rintro rfl; linarith
          rw [Function.update_of_ne hkj, Function.update_of_ne hki, hpk k hki, h1 k hk]
        · intro k hk
          by_cases hkj : k = j
          · subst hkj; simp
          · rw [Function.update_of_ne hkj]
            by_cases hki : k = i
            · subst hki
              left
              rw [Function.update_self]
              linarith [neg_abs_le (p k)]
            · rw [Function.update_of_ne hki, hpk k hki]
              rcases h2 k hk with h | ⟨a1, a2, a3⟩
              · exact Or.inl h
              · exact Or.inr ⟨a1, by simpa [hkj] using a2, a3⟩
        · intro hx k hk
          by_cases hkj : k = j
          · subst hkj; simp
          · rw [Function.update_of_ne hkj]
            by_cases hki : k = i
            · subst hki
              left
              rw [Function.update_self]
              exact hpi hx
            · rw [Function.update_of_ne hki, hpk k hki]
              rcases h4 hx k hk with h | ⟨a1, a2, a3⟩
              · exact Or.inl h
              · exact Or.inr ⟨a1, by simpa [hkj] using a2, a3⟩
      · rw [if_neg (by rw [binds_posm]; exact hn)]
        refine ih hl' pb cand h1 (fun k hk => ?_) h3 (fun hx k hk => ?_) h5
        · rcases h2 k hk with h | ⟨a1, a2, a3⟩
          · exact Or.inl h
          · by_cases hkj : k = j
            · subst hkj; rw [a3] at hn; exact absurd hk hn
            · exact Or.inr ⟨a1, by simpa [hkj] using a2, a3⟩
        · rcases h4 hx k hk with h | ⟨a1, a2, a3⟩
          · exact Or.inl h
          · by_cases hkj : k = j
            · subst hkj; rw [a3] at hn; exact absurd hk hn
            · exact Or.inr ⟨a1, by simpa [hkj] using a2, a3⟩

theorem candidate_posm (beta : V n) (m : ℝ) (i : Fin n) (hi : beta i < m) : ∃ c, candidate beta (positive n) i.val (pos i) m = some c ∧ Cand beta m c := by
  unfold candidate
  rw [nearest_pos, Option.bind_some, mark_pos]
  refine candLoop_posm beta m i hi _ (by
    intro q hq
    obtain ⟨j, _, rfl⟩ := List.mem_map.1 hq
    rfl) none _ ?_ ?_ ⟨i, by simp⟩ ?_ (Or.inr ⟨rfl, rfl⟩)
  · intro k hk
    have : k ≠ i := by rintro rfl; linarith
    simp [this]
  · intro k _
    by_cases h : k = i
    · subst h; simp
    · right
      refine ⟨h, ?_, by simp [h]⟩
      simp [h]
  · intro _ k _
    by_cases h : k = i
    · subst h; simp
    · right
      refine ⟨h, ?_, by simp [h]⟩
      simp [h]

/-- What the search ends with: a candidate, or the scratch vector if that is no farther than any. -/
theorem search_posm (beta : V n) (m : ℝ) (Q : V n → Prop) (cs : List (Con n)) : ∀ (l : List (Con n)) (closest : Option (V n)) (i : ℕ),
    (∀ j c, l[j]? = some c → binds beta c m → ∃ x, candidate beta cs (i + j) c m = some x ∧ Q x) → ((∃ c ∈ l, binds beta c m) ∨ closest ≠ none) →
    ∃ x, search beta cs m closest i l = some (some x) ∧ (Q x ∨ (closest = some x ∧ ∀ j c y, l[j]? = some c → binds beta c m → candidate beta cs (i + j) c m = some y → dist beta x ≤ dist beta y))
  | [], closest, i, _, h => by
    rcases h with ⟨c, hc, _⟩ | h
    · simp at hc
    · obtain ⟨x, hx⟩ := Option.ne_none_iff_exists'.1 h
      exact ⟨x, by simp [search, hx], Or.inr ⟨hx, by simp⟩⟩
  | c :: l, closest, i, h1, h => by
    have h1' : ∀ j c', l[j]? = some c' → binds beta c' m → ∃ x, candidate beta cs (i + 1 + j) c' m = some x ∧ Q x := by
      intro j c' hj hb
      have := h1 (j + 1) c' (by simpa using hj) hb
      rwa [show i + (j + 1) = i + 1 + j by omega] at this
    rw [search]
    by_cases hb : binds beta c m
    · obtain ⟨y, hy, hQ⟩ := h1 0 c (by simp) hb
      rw [Nat.add_zero] at hy
      rw [if_pos hb, hy, Option.bind_some]
      by_cases hn : nearer beta y closest
      · rw [if_pos hn]
        obtain ⟨x, e, hx⟩ := search_posm beta m Q cs l (some y) (i + 1) h1' (Or.inr (by simp))
        refine ⟨x, e, Or.inl ?_⟩
        rcases hx with hx | ⟨hx, _⟩
        · exact hx
        · cases hx; exact hQ
      · rw [if_neg hn]
        unfold nearer at hn
        push Not at hn
        obtain ⟨p, hp, hd⟩ := hn
        rw [Option.mem_def] at hp
        subst hp
        obtain ⟨x, e, hx⟩ := search_posm beta m Q cs l (some p) (i + 1) h1' (Or.inr (by simp))
        refine ⟨x, e, ?_⟩
        rcases hx with hx | ⟨hx, hall⟩
        · exact Or.inl hx
        · cases hx
          refine Or.inr ⟨rfl, ?_⟩
          intro j c' z hj hb' hz
          cases j with
          | zero =>
            simp at hj
            subst hj
            rw [Nat.add_zero, hy] at hz
            cases hz
            exact hd
          | succ j =>
            exact hall j c' z (by simpa using hj) hb' (by rwa [show i + (j + 1) = i + 1 + j by omega] at hz)
    · rw [if_neg hb]
      obtain ⟨x, e, hx⟩ := search_posm beta m Q cs l closest (i + 1) h1' (by
        rcases h with ⟨c', hc', hb'⟩ | h
        · rcases List.mem_cons.1 hc' with rfl | h
          · exact absurd hb' hb
          · exact Or.inl ⟨c', h, hb'⟩
        · exact Or.inr h)
      refine ⟨x, e, ?_⟩
      rcases hx with hx | ⟨hx, hall⟩
      · exact Or.inl hx
      · refine Or.inr ⟨hx, ?_⟩
        intro j c' z hj hb' hz
        cases j with
        | zero =>
          simp at hj
          subst hj
          exact absurd hb' hb
        | succ j => exact hall j c' z (by simpa using hj) hb' (by rwa [show i + (j + 1) = i + 1 + j by omega] at hz)

theorem addMargin_pos (beta : V n) (m : ℝ) : ∀ (l : List (Fin n)) (x : V n), l.Nodup → addMargin beta m x (l.map pos) = fun k => x k + if k ∈ l ∧ beta k < m then m else 0
  | [], x, _ => by simp [addMargin]
  | i :: l, x, h => by
    obtain ⟨h1, h2⟩ := List.nodup_cons.1 h
    rw [List.map_cons, addMargin, addMargin_pos beta m l _ h2]
    funext k
    by_cases hb : binds beta (pos i) m
    · rw [if_pos hb]
      rw [binds_posm] at hb
      by_cases hk : k = i
      · subst hk
        simp [h1, hb, pos, mag_single]
      · simp [hk, pos]
    · rw [if_neg hb]
      rw [binds_posm] at hb
      by_cases hk : k = i
      · subst hk; simp [h1, hb]
      · simp [hk]

/-- The scratch vector in this: no element negative and one of them zero. -/
def OnEdge {n : ℕ} (p : V n) : Prop := (∀ k, 0 ≤ p k) ∧ ∃ k, p k = 0

/-- A call with a margin that is not zero or negative. -/
theorem posm_call (m : ℝ) (hm : 0 ≤ m) (s : St) (hs : ∀ p ∈ s.fetch n, OnEdge p) (beta : V n) (hmt : ¬ Meets beta (positive n) m) (h1 : n ≠ 1) :
    ∃ o x, linearConstraint s (positive n) m beta = some o ∧ (o.beta = fun k => x k + if beta k < m then m else 0) ∧ o.penalty = dist beta o.beta ∧ o.st = ⟨n, some x⟩ ∧
      OnEdge x ∧ (Cand beta m x ∨ ∀ i, beta i < m → ∀ y, candidate beta (positive n) i.val (pos i) m = some y → dist beta x ≤ dist beta y) := by
  rw [multi s _ _ _ hmt (by simpa [positive] using h1)]
  have hex : ∃ c ∈ positive n, binds beta c m := by
    by_contra hne
    push Not at hne
    exact hmt ((meets_iff _ _ _).1 hne)
  have hidx : ∀ j c, (positive n)[j]? = some c → ∃ i : Fin n, c = pos i ∧ i.val = j := by
    intro j c hj
    rw [positive_eq, List.getElem?_map] at hj
    obtain ⟨i, hi, rfl⟩ := Option.map_eq_some_iff.1 hj
    refine ⟨i, rfl, ?_⟩
    obtain ⟨h1, h2⟩ := List.getElem?_eq_some_iff.1 hi
    rw [← h2]; simp
  obtain ⟨x, e, hx⟩ := search_posm beta m (Cand beta m) (positive n) (positive n) (s.fetch n) 0 (by
    intro j c hj hb
    obtain ⟨i, rfl, rfl⟩ := hidx j c hj
    rw [Nat.zero_add]
    exact candidate_posm beta m i ((binds_posm _ _ _).1 hb)) (Or.inl hex)
  rw [e]
  refine ⟨_, x, rfl, ?_, rfl, rfl, ?_, ?_⟩
  · simp only
    rw [positive_eq, addMargin_pos beta m _ x (List.nodup_finRange n)]
    simp
  · rcases hx with hx | ⟨hx, _⟩
    · refine ⟨fun k => ?_, hx.zero⟩
      rcases lt_or_ge (beta k) m with h | h
      · exact hx.nonneg k h
      · rw [hx.keep k h]; linarith
    · exact hs x hx
  · rcases hx with hx | ⟨_, hx⟩
    · exact Or.inl hx
    · right
      intro i hi y hy
      refine hx i.val (pos i) y ?_ ((binds_posm _ _ _).2 hi) (by rw [Nat.zero_add]; exact hy)
      rw [positive_eq, List.getElem?_map]
      simp

/-- The state after calls with the default constraint (with any margins and numbers of parameters) and with one constraint. -/
inductive ReachP : St → Prop
  | start : ReachP ⟨0, none⟩
  | dflt {n : ℕ} {s : St} {beta : V n} {m : ℝ} {o : Out n} : 0 ≤ m → ReachP s → linearConstraint s (positive n) m beta = some o → ReachP o.st
  | single {n : ℕ} {s : St} {beta : V n} {c : Con n} {m : ℝ} {o : Out n} : ReachP s → linearConstraint s [c] m beta = some o → ReachP o.st

theorem met_st {s : St} {cs : List (Con n)} {m : ℝ} {beta : V n} {o : Out n} (h : Meets beta cs m) (ho : linearConstraint s cs m beta = some o) : o = ⟨0, beta, ⟨n, s.fetch n⟩⟩ := by
  unfold linearConstraint at ho
  rw [if_pos ((meets_iff _ _ _).2 h)] at ho
  cases ho; rfl

theorem reachP_fetch {s : St} (h : ReachP s) : ∀ m, ∀ p ∈ s.fetch m, OnEdge p := by
  induction h with
  | start => exact fun m => fetch_prop (fun _ p => OnEdge p) 0 m none (by simp)
  | @dflt n s beta mg o hmg hs ho ih =>
    intro m
    by_cases hm : Meets beta (positive n) mg
    · rw [met_st hm ho]; exact fetch_prop (fun _ p => OnEdge p) n m _ (ih n)
    · by_cases hn : n = 1
      · subst hn
        have e : positive 1 = [pos 0] := by rw [positive_eq]; rfl
        rw [e] at ho
        rw [single_st ho]; exact fetch_prop (fun _ p => OnEdge p) 1 m _ (ih 1)
      · obtain ⟨o', x, ho', _, _, hst, hx, _⟩ := posm_call mg hmg s (ih n) beta hm hn
        rw [ho] at ho'
        cases ho'
        rw [hst]
        refine fetch_prop (fun _ p => OnEdge p) n m _ ?_
        intro q hq
        simp only [Option.mem_def, Option.some.injEq] at hq
        rw [← hq]; exact hx
  | @single n s beta c mg o hs ho ih =>
    intro m
    rw [single_st ho]
    exact fetch_prop (fun _ p => OnEdge p) n m _ (ih n)

/-- **Positive parameters with a margin** (Beta, Gamma, Dirichlet; any number of parameters): after any history of such calls, every element below the margin ends no less than the margin, and the penalty is the distance moved. If no element was strictly between zero and the margin, the result is each element raised to the margin where below it: the nearest point. -/
theorem C174_positive {m : ℝ} (hm : 0 ≤ m) {s : St} (h : ReachP s) (beta : V n) : ∃ o, linearConstraint s (positive n) m beta = some o ∧ o.penalty = dist beta o.beta ∧
    (∀ k, beta k < m → m ≤ o.beta k) ∧ ((∀ k, ¬ (0 < beta k ∧ beta k < m)) → o.beta = fun k => max (beta k) m) := by
  by_cases hmt : Meets beta (positive n) m
  · obtain ⟨st, hst⟩ := C88_met s _ m beta hmt
    have hk : ∀ k, m ≤ beta k := by
      intro k
      have := (meets_iff _ _ _).2 hmt (pos k) (by rw [positive_eq]; simp)
      rw [binds_posm] at this
      exact not_lt.1 this
    refine ⟨_, hst, by simp [dist], fun k h => absurd (hk k) (not_le.2 h), fun _ => ?_⟩
    funext k
    exact (max_eq_left (hk k)).symm
  · by_cases h1 : n = 1
    · subst h1
      obtain ⟨o, e1, e2, e3⟩ := (C174_single s).2.2 m beta
      have e4 : o.beta = fun k => max (beta k) m := by
        rw [e2]; funext k; rw [Subsingleton.elim k 0]
      refine ⟨o, e1, e3, fun k _ => ?_, fun _ => e4⟩
      rw [e4]
      exact le_max_right _ _
    · obtain ⟨o, x, ho, hb, hp, _, hx, hc⟩ := posm_call m hm s (reachP_fetch h n) beta hmt h1
      refine ⟨o, ho, hp, fun k hk => ?_, fun hex => ?_⟩
      · rw [hb]
        simp only [if_pos hk]
        linarith [hx.1 k]
      · have hneg : ∀ k, beta k < m → beta k ≤ 0 := fun k hk => by
          by_contra h0
          exact hex k ⟨not_le.1 h0, hk⟩
        have hxk : ∀ k, x k = if beta k < m then 0 else beta k := by
          rcases hc with hc | hc
          · intro k
            split_ifs with hk
            · exact hc.exact hneg k hk
            · exact hc.keep k (not_lt.1 hk)
          · obtain ⟨i, hi⟩ : ∃ i, beta i < m := by
              by_contra hne
              push Not at hne
              apply hmt
              rw [← meets_iff]
              intro c hc'
              rw [positive_eq] at hc'
              obtain ⟨j, _, rfl⟩ := List.mem_map.1 hc'
              rw [binds_posm, not_lt]
              exact hne j
            obtain ⟨y, hy, hyc⟩ := candidate_posm beta m i hi
            have hd := hc i hi y hy
            rw [dist_lt_iff] at hd
            have hyk : ∀ k, y k = if beta k < m then 0 else beta k := by
              intro k
              split_ifs with hk
              · exact hyc.exact hneg k hk
              · exact hyc.keep k (not_lt.1 hk)
            have key : ∀ k, (beta k - y k) ^ 2 + (x k - y k) ^ 2 ≤ (beta k - x k) ^ 2 := by
              intro k
              rw [hyk k]
              split_ifs with hk
              · nlinarith [hneg k hk, hx.1 k]
              · nlinarith
            have hs := Finset.sum_le_sum fun k (_ : k ∈ Finset.univ) => key k
            rw [Finset.sum_add_distrib] at hs
            have h2 : 0 ≤ ∑ k, (x k - y k) ^ 2 := Finset.sum_nonneg fun i _ => sq_nonneg _
            have h3 : ∑ k, (x k - y k) ^ 2 = 0 := by linarith
            intro k
            have := (Finset.sum_eq_zero_iff_of_nonneg fun i _ => sq_nonneg _).1 h3 k (Finset.mem_univ k)
            rw [← hyk k]
            exact sub_eq_zero.1 (pow_eq_zero_iff (two_ne_zero)|>.1 this)
        rw [hb]
        funext k
        rw [hxk k]
        split_ifs with hk
        · rw [max_eq_right hk.le, zero_add]
        · rw [max_eq_left (not_lt.1 hk), add_zero]

/-- **Beta and Gamma** (two parameters): after any history of such calls, both parameters end no less than the margin. -/
theorem C174_beta {m : ℝ} (hm : 0 < m) {s : St} (h : ReachP s) (beta : V 2) : ∃ o, linearConstraint s (positive 2) m beta = some o ∧ ∀ k, m ≤ o.beta k := by
  by_cases hmt : Meets beta (positive 2) m
  · obtain ⟨st, hst⟩ := C88_met s _ m beta hmt
    refine ⟨_, hst, fun k => ?_⟩
    have := (meets_iff _ _ _).2 hmt (pos k) (by rw [positive_eq]; simp)
    rw [binds_posm] at this
    exact not_lt.1 this
  · obtain ⟨o, x, ho, hb, hp, _, hx, hc⟩ := posm_call m hm.le s (reachP_fetch h 2) beta hmt (by norm_num)
    refine ⟨o, ho, ?_⟩
    have main : ∀ i j : Fin 2, i ≠ j → beta i < m → m ≤ beta j → x j = beta j := by
      intro i j hij hi hj
      rcases hc with hc | hc
      · exact hc.keep j hj
      · obtain ⟨y, hy, hyc⟩ := candidate_posm beta m i hi
        have hd := hc i hi y hy
        rw [dist_lt_iff] at hd
        have hsum : ∀ f : Fin 2 → ℝ, ∑ k, f k = f i + f j := by
          intro f
          rw [Fin.sum_univ_two]
          fin_cases i <;> fin_cases j <;> simp_all [add_comm]
        rw [hsum, hsum] at hd
        have hyj := hyc.keep j hj
        have two : ∀ k : Fin 2, k = i ∨ k = j := by
          intro k
          fin_cases i <;> fin_cases j <;> fin_cases k <;> simp_all
        have hyi : y i = 0 := by
          obtain ⟨k, hk⟩ := hyc.zero
          rcases two k with rfl | rfl
          · exact hk
          · rw [hyj] at hk; linarith
        rw [hyi, hyj] at hd
        simp only [sub_zero, sub_self, ne_eq, OfNat.ofNat_ne_zero, not_false_eq_true, zero_pow, add_zero] at hd
        have hz : (beta j - x j) ^ 2 ≤ 0 → x j = beta j := by
          intro h0
          have := pow_eq_zero_iff (two_ne_zero) |>.1 (le_antisymm h0 (sq_nonneg _))
          linarith
        apply hz
        rcases le_or_gt (beta i) 0 with h0 | h0
        · nlinarith [hx.1 i]
        · obtain ⟨k, hk⟩ := hx.2
          rcases two k with rfl | rfl
          · rw [hk] at hd; nlinarith
          · rw [hk] at hd; nlinarith [sq_nonneg (beta i - x i)]
    intro k
    rw [hb]
    by_cases hk : beta k < m
    · simp only [if_pos hk]; linarith [hx.1 k]
    · simp only [if_neg hk, add_zero]
      obtain ⟨i, hi⟩ : ∃ i, beta i < m := by
        by_contra hne
        push Not at hne
        apply hmt
        rw [← meets_iff]
        intro c hc'
        rw [positive_eq] at hc'
        obtain ⟨j, _, rfl⟩ := List.mem_map.1 hc'
        rw [binds_posm, not_lt]
        exact hne j
      rw [main i k (by rintro rfl; exact hk hi) hi (not_lt.1 hk)]
      exact not_lt.1 hk

/-! ### What goes wrong -/

theorem positive_two : positive 2 = [pos 0, pos 1] := by rw [positive_eq]; rfl
theorem positive_three : positive 3 = [pos 0, pos 1, pos 2] := by rw [positive_eq]; rfl

theorem not_meets_pos {m : ℝ} (beta : V n) (i : Fin n) (h : beta i < m) : ¬ Meets beta (positive n) m := by
  rw [← meets_iff, positive_eq]
  intro h'
  have := h' (pos i) (by simp)
  rw [binds_posm] at this
  exact this h

/-- Two candidates, for the two constraints. -/
theorem cand_two (beta : V 2) (m : ℝ) : candidate beta (positive 2) 0 (pos 0) m = some (if beta 1 < m then ![beta 0 + |beta 0|, 0] else ![0, beta 1]) ∧
    candidate beta (positive 2) 1 (pos 1) m = some (if beta 0 < m then ![0, beta 1 + |beta 1|] else ![beta 0, 0]) := by
  constructor
  · unfold candidate
    rw [nearest_pos, Option.bind_some, positive_two]
    simp only [mark, List.mapIdx_cons, List.mapIdx_nil, candLoop]
    simp only [decide_true, if_true, binds_posm]
    simp
    split_ifs
    · rw [adapt_posm (by simp)]
      simp
      funext k; fin_cases k <;> simp
    · simp
      funext k; fin_cases k <;> simp
  · unfold candidate
    rw [nearest_pos, Option.bind_some, positive_two]
    simp only [mark, List.mapIdx_cons, List.mapIdx_nil, candLoop]
    simp only [decide_true, if_true, binds_posm]
    simp
    split_ifs
    · rw [adapt_posm (by simp)]
      simp
      funext k; fin_cases k <;> simp
    · simp
      funext k; fin_cases k <;> simp

/-- Elements between zero and the margin are moved too far: (m/2, m/2) goes to (2m, m), though (m, m) is in bounds and nearer. -/
theorem C174_overshoot_refuted {m : ℝ} (hm : 0 < m) : ∃ o, linearConstraint ⟨0, none⟩ (positive 2) m ![m / 2, m / 2] = some o ∧ o.beta = ![2 * m, m] ∧
    Meets ![m, m] (positive 2) m ∧ dist ![m / 2, m / 2] ![m, m] < dist ![m / 2, m / 2] o.beta := by
  have hmt := not_meets_pos (m := m) ![m / 2, m / 2] 0 (by simp; linarith)
  have hf : St.fetch ⟨0, none⟩ 2 = none := by simp [St.fetch]
  obtain ⟨c0, c1⟩ := cand_two ![m / 2, m / 2] m
  have hlt : m / 2 < m := by linarith
  have hab : m / 2 + |m / 2| = m := by rw [abs_of_pos (by linarith)]; ring
  simp only [Matrix.cons_val_zero, Matrix.cons_val_one, hlt, if_true, hab] at c0 c1
  have hb : ∀ k, binds ![m / 2, m / 2] (pos k : Con 2) m := by
    intro k; rw [binds_posm]; fin_cases k <;> simpa using hlt
  have hd : ¬ dist ![m / 2, m / 2] ![0, m] < dist ![m / 2, m / 2] ![m, 0] := by
    rw [not_lt, dist_lt_iff]
    simp only [Fin.sum_univ_two, Matrix.cons_val_zero, Matrix.cons_val_one]
    nlinarith
  have hs : search ![m / 2, m / 2] (positive 2) m none 0 [pos 0, pos 1] = some (some ![m, 0]) := by
    simp only [search, if_pos (hb _), c0, c1, Option.bind_some, nearer]
    simp [hd]
  refine ⟨⟨dist ![m / 2, m / 2] ![2 * m, m], ![2 * m, m], ⟨2, some ![m, 0]⟩⟩, ?_, rfl, ?_, ?_⟩
  · rw [multi _ _ _ _ hmt (by simp [positive]), hf]
    have hs' := hs
    rw [← positive_two] at hs'
    rw [hs']
    have : addMargin ![m / 2, m / 2] m ![m, 0] (positive 2) = ![2 * m, m] := by
      rw [positive_eq, addMargin_pos _ _ _ _ (List.nodup_finRange 2)]
      funext k; fin_cases k <;> simp [hlt]; ring
    simp [this]
  · rw [← meets_iff, positive_two]
    simp only [List.mem_cons, List.not_mem_nil, or_false, forall_eq_or_imp, forall_eq, binds_posm]
    simp
  · apply lt_of_not_ge
    rw [dist_lt_iff]
    simp only [Fin.sum_univ_two, Matrix.cons_val_zero, Matrix.cons_val_one]
    nlinarith [sq_nonneg m, mul_pos hm hm]

/-- The constraints of three positive parameters, one of which does not bind: the candidates for the other two. -/
theorem cand_three (beta : V 3) (m : ℝ) (i j k : Fin 3) (hij : i ≠ j) (hik : i ≠ k) (hjk : j ≠ k) (hj : beta j < m) (hk : ¬ beta k < m) :
    candidate beta (positive 3) i.val (pos i) m = some (Function.update (Function.update beta i (beta i + |beta i|)) j 0) := by
  unfold candidate
  rw [nearest_pos, Option.bind_some, positive_three]
  have hnk : ¬ binds (Function.update (Function.update beta i (beta i + |beta i|)) j 0) (pos k) m := by
    rw [binds_posm]; simpa [Ne.symm hik, Ne.symm hjk] using hk
  have hnk' : ¬ binds (Function.update beta i 0) (pos k) m := by
    rw [binds_posm]; simpa [Ne.symm hik] using hk
  have hbj : binds (Function.update beta i 0) (pos j) m := by
    rw [binds_posm]; simpa [Ne.symm hij] using hj
  have had := adapt_posm hij beta
  simp only [mark, List.mapIdx_cons, List.mapIdx_nil, candLoop]
  fin_cases i <;> fin_cases j <;> fin_cases k <;> simp_all

/-- **Dirichlet**: with three parameters its own history can leave one out of bounds: a call at (.45m, m, -1) followed by one at (.9m, .9m, m) gives (1.9m, 2m, 0), though the third parameter was in bounds before. -/
theorem C174_dirichlet_refuted {m : ℝ} (hm : 0 < m) : ∃ o o', linearConstraint ⟨0, none⟩ (positive 3) m ![45 / 100 * m, m, -1] = some o ∧
    linearConstraint o.st (positive 3) m ![9 / 10 * m, 9 / 10 * m, m] = some o' ∧ o'.beta = ![19 / 10 * m, 2 * m, 0] := by
  have e2 : ∀ a b c : ℝ, (![a, b, c] : V 3) 2 = c := fun _ _ _ => rfl
  have e1 : ∀ a b c : ℝ, (![a, b, c] : V 3) 1 = b := fun _ _ _ => rfl
  have e0 : ∀ a b c : ℝ, (![a, b, c] : V 3) 0 = a := fun _ _ _ => rfl
  have hf : St.fetch ⟨0, none⟩ 3 = none := by simp [St.fetch]
  refine ⟨⟨dist ![45 / 100 * m, m, -1] ![19 / 10 * m, m, m], ![19 / 10 * m, m, m], ⟨3, some ![9 / 10 * m, m, 0]⟩⟩,
    ⟨dist ![9 / 10 * m, 9 / 10 * m, m] ![19 / 10 * m, 2 * m, 0], ![19 / 10 * m, 2 * m, 0], ⟨3, some ![9 / 10 * m, m, 0]⟩⟩, ?_, ?_, rfl⟩
  · rw [multi _ _ _ _ (not_meets_pos _ 2 (by rw [e2]; linarith)) (by simp [positive]), hf]
    have c0 := cand_three ![45 / 100 * m, m, -1] m 0 2 1 (by decide) (by decide) (by decide) (by rw [e2]; linarith) (by rw [e1]; linarith)
    have c2 := cand_three ![45 / 100 * m, m, -1] m 2 0 1 (by decide) (by decide) (by decide) (by rw [e0]; linarith) (by rw [e1]; linarith)
    have v0 : Function.update (Function.update (![45 / 100 * m, m, -1] : V 3) 0 (45 / 100 * m + |45 / 100 * m|)) 2 0 = ![9 / 10 * m, m, 0] := by
      rw [abs_of_pos (by linarith)]
      funext k; fin_cases k <;> simp; ring
    have v2 : Function.update (Function.update (![45 / 100 * m, m, -1] : V 3) 2 (-1 + |(-1 : ℝ)|)) 0 0 = ![0, m, 0] := by
      funext k; fin_cases k <;> simp
    rw [e0, v0] at c0
    rw [e2, v2] at c2
    have hd : ¬ dist ![45 / 100 * m, m, -1] ![0, m, 0] < dist ![45 / 100 * m, m, -1] ![9 / 10 * m, m, 0] := by
      rw [not_lt, dist_lt_iff]
      simp only [Fin.sum_univ_three, e0, e1, e2]
      nlinarith
    have b0 : binds (![45 / 100 * m, m, -1] : V 3) (pos 0) m := by rw [binds_posm, e0]; linarith
    have b1 : ¬ binds (![45 / 100 * m, m, -1] : V 3) (pos 1) m := by rw [binds_posm, e1]; linarith
    have b2 : binds (![45 / 100 * m, m, -1] : V 3) (pos 2) m := by rw [binds_posm, e2]; linarith
    have hs : search ![45 / 100 * m, m, -1] (positive 3) m none 0 [pos 0, pos 1, pos 2] = some (some ![9 / 10 * m, m, 0]) := by
      simp only [Fin.val_zero, Fin.val_two] at c0 c2
      simp only [search, if_pos b0, if_neg b1, if_pos b2, c0, c2, Option.bind_some, nearer]
      simp [c2, hd]
    rw [← positive_three] at hs
    rw [hs]
    have : addMargin ![45 / 100 * m, m, -1] m ![9 / 10 * m, m, 0] (positive 3) = ![19 / 10 * m, m, m] := by
      rw [positive_eq, addMargin_pos _ _ _ _ (List.nodup_finRange 3)]
      have h0 : 45 / 100 * m < m := by linarith
      have h2 : (-1 : ℝ) < m := by linarith
      funext k; fin_cases k <;> simp [h0, h2]; ring
    simp [this]
  · have hf' : St.fetch ⟨3, some (![9 / 10 * m, m, 0] : V 3)⟩ 3 = some ![9 / 10 * m, m, 0] := by simp [St.fetch]
    rw [multi _ _ _ _ (not_meets_pos _ 0 (by rw [e0]; linarith)) (by simp [positive]), hf']
    have c0 := cand_three ![9 / 10 * m, 9 / 10 * m, m] m 0 1 2 (by decide) (by decide) (by decide) (by rw [e1]; linarith) (by rw [e2]; linarith)
    have c1 := cand_three ![9 / 10 * m, 9 / 10 * m, m] m 1 0 2 (by decide) (by decide) (by decide) (by rw [e0]; linarith) (by rw [e2]; linarith)
    have v0 : Function.update (Function.update (![9 / 10 * m, 9 / 10 * m, m] : V 3) 0 (9 / 10 * m + |9 / 10 * m|)) 1 0 = ![18 / 10 * m, 0, m] := by
      rw [abs_of_pos (by linarith)]
      funext k; fin_cases k <;> simp; ring
    have v1 : Function.update (Function.update (![9 / 10 * m, 9 / 10 * m, m] : V 3) 1 (9 / 10 * m + |9 / 10 * m|)) 0 0 = ![0, 18 / 10 * m, m] := by
      rw [abs_of_pos (by linarith)]
      funext k; fin_cases k <;> simp; ring
    rw [e0, v0] at c0
    rw [e1, v1] at c1
    have hd : ∀ x, x = ![18 / 10 * m, 0, m] ∨ x = ![0, 18 / 10 * m, m] → ¬ dist ![9 / 10 * m, 9 / 10 * m, m] x < dist ![9 / 10 * m, 9 / 10 * m, m] ![9 / 10 * m, m, 0] := by
      rintro x (rfl | rfl) <;>
      · rw [not_lt, dist_lt_iff]
        simp only [Fin.sum_univ_three, e0, e1, e2]
        nlinarith
    have hd0 := hd _ (Or.inl rfl)
    have hd1 := hd _ (Or.inr rfl)
    have b0 : binds (![9 / 10 * m, 9 / 10 * m, m] : V 3) (pos 0) m := by rw [binds_posm, e0]; linarith
    have b1 : binds (![9 / 10 * m, 9 / 10 * m, m] : V 3) (pos 1) m := by rw [binds_posm, e1]; linarith
    have b2 : ¬ binds (![9 / 10 * m, 9 / 10 * m, m] : V 3) (pos 2) m := by rw [binds_posm, e2]; linarith
    have hs : search ![9 / 10 * m, 9 / 10 * m, m] (positive 3) m (some ![9 / 10 * m, m, 0]) 0 [pos 0, pos 1, pos 2] = some (some ![9 / 10 * m, m, 0]) := by
      simp only [Fin.val_zero, Fin.val_one] at c0 c1
      simp only [search, if_pos b0, if_pos b1, if_neg b2, c0, c1, Option.bind_some, nearer]
      simp [c1, hd0, hd1]
    rw [← positive_three] at hs
    rw [hs]
    have : addMargin ![9 / 10 * m, 9 / 10 * m, m] m ![9 / 10 * m, m, 0] (positive 3) = ![19 / 10 * m, 2 * m, 0] := by
      rw [positive_eq, addMargin_pos _ _ _ _ (List.nodup_finRange 3)]
      have h0 : 9 / 10 * m < m := by linarith
      funext k; fin_cases k <;> simp [h0] <;> ring
    simp [this]

/-- **The scratch vector is shared by all models**: after a call for a Dirichlet of three parameters at (1, 1, -1), the t's constraint turns (1, 1, .4) into (1, 1, 0), where the number of degrees of freedom is out of bounds. -/
theorem C174_shared_refuted : ∃ o o', linearConstraint ⟨0, none⟩ (positive 3) betaMargin ![1, 1, -1] = some o ∧
    linearConstraint o.st (tAx.map Ax.con) 0 ![1, 1, 4 / 10] = some o' ∧ o'.beta = ![1, 1, 0] := by
  have e2 : ∀ a b c : ℝ, (![a, b, c] : V 3) 2 = c := fun _ _ _ => rfl
  have e1 : ∀ a b c : ℝ, (![a, b, c] : V 3) 1 = b := fun _ _ _ => rfl
  have e0 : ∀ a b c : ℝ, (![a, b, c] : V 3) 0 = a := fun _ _ _ => rfl
  have hmg : betaMargin = 1 / 10000 := rfl
  have hnm := not_meets_pos (m := betaMargin) ![1, 1, -1] 2 (by rw [e2, hmg]; norm_num)
  obtain ⟨o, x, ho, _, _, hst, hx, hc⟩ := posm_call betaMargin (by rw [hmg]; norm_num) ⟨0, none⟩ (by simp [St.fetch]) ![1, 1, -1] hnm (by norm_num)
  have hneg : ∀ k, (![1, 1, -1] : V 3) k < betaMargin → (![1, 1, -1] : V 3) k ≤ 0 := by
    intro k hk
    fin_cases k
    · change (1 : ℝ) < _ at hk; rw [hmg] at hk; norm_num at hk
    · change (1 : ℝ) < _ at hk; rw [hmg] at hk; norm_num at hk
    · change (-1 : ℝ) ≤ 0; norm_num
  have hcd : ∀ c, Cand ![1, 1, -1] betaMargin c → c = ![1, 1, 0] := by
    intro c hc
    funext k
    fin_cases k
    · exact hc.keep 0 (by rw [e0, hmg]; norm_num)
    · exact hc.keep 1 (by rw [e1, hmg]; norm_num)
    · exact hc.exact hneg 2 (by rw [e2, hmg]; norm_num)
  have hxe : x = ![1, 1, 0] := by
    rcases hc with hc | hc
    · exact hcd x hc
    · obtain ⟨y, hy, hyc⟩ := candidate_posm (![1, 1, -1] : V 3) betaMargin 2 (by rw [e2, hmg]; norm_num)
      have hd := hc 2 (by rw [e2, hmg]; norm_num) y hy
      rw [hcd y hyc, dist_lt_iff, Fin.sum_univ_three, Fin.sum_univ_three] at hd
      simp only [e0, e1, e2] at hd
      have h2 := hx.1 2
      have s0 : x 0 = 1 := by nlinarith [sq_nonneg (1 - x 0), sq_nonneg (1 - x 1)]
      have s1 : x 1 = 1 := by nlinarith [sq_nonneg (1 - x 0), sq_nonneg (1 - x 1)]
      have s2 : x 2 = 0 := by nlinarith [sq_nonneg (1 - x 0), sq_nonneg (1 - x 1)]
      funext k
      fin_cases k
      · exact s0
      · exact s1
      · exact s2
  subst hxe
  have hlist : tAx.map Ax.con = [(atLeast 1 0).con, (atLeast 2 (9 / 10)).con] := rfl
  have hnt : ¬ Meets (![1, 1, 4 / 10] : V 3) (tAx.map Ax.con) 0 := by
    rw [← meets_iff]
    intro h
    have := h (atLeast 2 (9 / 10)).con (by simp [tAx])
    rw [binds_ax] at this
    apply this
    change (1 : ℝ) * (4 / 10) < 9 / 10 + 0
    norm_num
  have hclamp : clamp tAx (![1, 1, 4 / 10] : V 3) 2 = 9 / 10 := by
    have hb : broken tAx (![1, 1, 4 / 10] : V 3) 2 = some (atLeast 2 (9 / 10)) := by
      have := broken_of sep_tAx (beta := ![1, 1, 4 / 10]) (a := atLeast 2 (9 / 10)) (by simp [tAx]) (by
        change (1 : ℝ) * (4 / 10) < 9 / 10
        norm_num)
      exact this
    rw [clamp, hb]
    simp [atLeast, Ax.s]
  obtain ⟨o', ho', hp⟩ := C88_history_refuted (clamp tAx ![1, 1, 4 / 10]) ![1, 1, 0] ![1, 1, 4 / 10] (tAx.map Ax.con) (by simp [tAx]) hnt (by
    intro j c hj hb
    rw [List.getElem?_map] at hj
    obtain ⟨a, ha, rfl⟩ := Option.map_eq_some_iff.1 hj
    exact candidate_ax sep_tAx _ ha hb) (by
    rw [dist_lt_iff, Fin.sum_univ_three, Fin.sum_univ_three, hclamp]
    simp only [e0, e1, e2]
    nlinarith [sq_nonneg (1 - clamp tAx ![1, 1, 4 / 10] 0), sq_nonneg (1 - clamp tAx ![1, 1, 4 / 10] 1)])
  exact ⟨o, o', ho, by rw [hst]; exact ho', hp⟩

/-- The hypotheses are met, after calls of the kinds in question: the Multinomial at (10, -.2, 1.3) goes to (10, 0, 1) whatever such calls were before. -/
example {s : St} (h : ReachF (fun n => (multinomialAx n).map Ax.con) s) : ∃ o, linearConstraint s ((multinomialAx 3).map Ax.con) 0 ![10, -1 / 5, 13 / 10] = some o ∧ o.beta = ![10, 0, 1] := by
  obtain ⟨o, h1, h2, _⟩ := C174_multinomial h ![10, -1 / 5, 13 / 10]
  refine ⟨o, h1, ?_⟩
  have hy : (fun x : V 3 => (∀ i, 0 ≤ x i) ∧ ∀ i : Fin 2, x i.succ ≤ 1) ![10, 0, 1] := by
    refine ⟨fun i => ?_, fun i => ?_⟩
    · fin_cases i <;> simp
    · fin_cases i <;> simp
  obtain ⟨a, b⟩ := h2.2 _ hy
  rw [dist_lt_iff, Fin.sum_univ_three, Fin.sum_univ_three] at a
  change (10 - o.beta 0) ^ 2 + (-1 / 5 - o.beta 1) ^ 2 + (13 / 10 - o.beta 2) ^ 2 ≤ (10 - 10) ^ 2 + (-1 / 5 - 0) ^ 2 + (13 / 10 - 1) ^ 2 at a
  have p1 := h2.1.1 1
  have p2 := h2.1.2 1
  change o.beta 2 ≤ 1 at p2
  have s0 : o.beta 0 = 10 := by nlinarith [sq_nonneg (10 - o.beta 0)]
  have s1 : o.beta 1 = 0 := by nlinarith [sq_nonneg (10 - o.beta 0)]
  have s2 : o.beta 2 = 1 := by nlinarith [sq_nonneg (10 - o.beta 0)]
  funext k
  fin_cases k
  · exact s0
  · exact s1
  · exact s2

example : ReachP ⟨0, none⟩ ∧ ReachB ⟨0, none⟩ ∧ ∃ o, linearConstraint ⟨0, none⟩ (positive 2) betaMargin ![-1, 3] = some o ∧ ReachP o.st ∧ o.beta = ![betaMargin, 3] := by
  have hmg : betaMargin = 1 / 10000 := rfl
  obtain ⟨o, h1, _, _, h2⟩ := C174_positive (m := betaMargin) (by rw [hmg]; norm_num) .start ![-1, 3]
  refine ⟨.start, .start, o, h1, .dflt (by rw [hmg]; norm_num) .start h1, ?_⟩
  rw [h2 ?_]
  · funext k
    fin_cases k <;> simp [hmg] <;> norm_num
  · intro k
    fin_cases k <;> simp [hmg] <;> norm_num

end Apop.LinCon
