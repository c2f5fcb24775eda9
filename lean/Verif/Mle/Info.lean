import Verif.Mle.Shell
import Mathlib.Order.Bounds.Basic

/-! # C123: the reported log likelihood and information criteria (apop_mle.m4.c:378-410) -/

namespace Apop.Mle.Shell

open Apop Apop.Mle

variable {n : ℕ}

/-- A number on the info page; `none`: NaN or infinite. -/
abbrev Num := Option ℝ

/-- `apop_log_likelihood` of the model at given parameters. -/
noncomputable def logLik (m : Model n) (x : P n) : Num :=
  match m.f x with
  | none => none
  | some y => if m.isLog then some y else if 0 < y then some (Real.log y) else none

/-- `a / b` in C. -/
noncomputable def quot (a b : ℝ) : Num := if b = 0 then none else some (a / b)

/-- `add_info_criteria`, apop_mle.m4.c:378-393. `N`: the number of rows of the data, if there is
data; `k`: the number of parameters. -/
noncomputable def criteria (m : Model n) (x : P n) (best : ℝ) (k : ℕ) (N : Option ℕ) : List (String × Num) :=
  let ll : Num := if best = 0 then logLik m x else some best
  let aic : Num := ll.map fun l : ℝ => 2 * (k : ℝ) - 2 * l
  [("log likelihood", ll), ("AIC", aic)] ++
    match N with
    | none => []
    | some N =>
      [("AIC_c", aic.bind fun a => (quot (2 * k * (k + 1)) (N - k - 1)).map (a + ·)),
       ("BIC", if N = 0 then none else ll.map fun l : ℝ => k * Real.log N - 2 * l)]

/-- `auxinfo`, apop_mle.m4.c:395-410, when no covariance or tests are wanted. The count of parameters
is read from `i->beta`, which the conjugate gradient and Newton searches have freed
(`freed`; apop_mle.m4.c:470 and 912). -/
noncomputable def auxinfo (m : Model n) (freed : Bool) (N : Option ℕ) (status : ℤ) (x : P n) (st : St n) : Res (List (String × Num)) :=
  if st.want then
    if freed then .ub
    else .ok (("status", some (status : ℝ)) :: criteria m x st.best n N)
  else .ok [("status", some (status : ℝ))]

/-! ## The best value -/

theorem note_fine {m : Model n} {v : ℝ} (hv : m.isLog = false → 0 < v) (best : ℝ) :
    note m.isLog v best true = (max best (llOf m v), true) := by
  unfold note llOf
  cases h : m.isLog with
  | true => simp
  | false =>
    have := hv h
    simp [not_lt.2 this.le, this.ne']

theorem afterAll_best {m : Model n} (bs : List (P n)) {st : St n} (hw : st.want = true) (h : ∀ b ∈ bs, Fine m b) :
    (afterAll m st bs).want = true ∧
      IsGreatest {l | l = st.best ∨ ∃ b ∈ bs, ∃ v, value m b = some v ∧ l = llOf m v} (afterAll m st bs).best := by
  induction bs generalizing st with
  | nil =>
    refine ⟨hw, Or.inl rfl, ?_⟩
    rintro l (rfl | ⟨b, hb, _⟩)
    · exact le_rfl
    · simp at hb
  | cons b bs ih =>
    obtain ⟨v, hv, hpos⟩ := h b (by simp)
    have e : (note m.isLog ((value m b).getD 0) st.best st.want) = (max st.best (llOf m v), true) := by
      rw [hw, hv]; exact note_fine hpos _
    have hw' : (after m st b).want = true := by simp [after, e]
    have hb' : (after m st b).best = max st.best (llOf m v) := by simp [after, e]
    obtain ⟨i1, i2, i3⟩ := ih hw' fun x hx => h x (by simp [hx])
    rw [afterAll]
    refine ⟨i1, ?_, ?_⟩
    · rcases i2 with e1 | ⟨c, hc, w, hw1, hw2⟩
      · rw [hb'] at e1
        rcases max_choice st.best (llOf m v) with e2 | e2
        · exact Or.inl (e1.trans e2)
        · exact Or.inr ⟨b, by simp, v, hv, e1.trans e2⟩
      · exact Or.inr ⟨c, by simp [hc], w, hw1, hw2⟩
    · have top : (after m st b).best ≤ (afterAll m (after m st b) bs).best := i3 (Or.inl rfl)
      rw [hb'] at top
      rintro l (rfl | ⟨c, hc, w, hw1, rfl⟩)
      · exact (le_max_left _ _).trans top
      · rcases List.mem_cons.1 hc with rfl | hc
        · have : w = v := by rw [hw1] at hv; exact Option.some.inj hv
          subst this
          exact (le_max_right _ _).trans top
        · exact i3 (Or.inr ⟨c, hc, w, hw1, rfl⟩)

/-- The report of a whole search, from a fresh `infostruct`. -/
noncomputable def report (m : Model n) (freed : Bool) (N : Option ℕ) (status : ℤ) (s : Search n) (params : P n) (path : Option (List (P n × ℝ))) :
    Option (Res (List (String × Num))) :=
  match run m s ⟨params, path, 0, true⟩ with
  | .failed => none
  | .at x st => some (auxinfo m freed N status x st)

/-- Which log likelihood is reported: the best among those evaluated if positive, and otherwise the
one at the parameters where the search stopped. -/
theorem reported_ll (m : Model n) (N : Option ℕ) (status : ℤ) (s : Search n) (params : P n) (path : Option (List (P n × ℝ)))
    (h : ∀ x ∈ visited m path.isSome s, Fine m x) :
    ∃ best, IsGreatest {l | l = 0 ∨ ∃ b ∈ visited m path.isSome s, ∃ v, value m b = some v ∧ l = llOf m v} best ∧
      report m false N status s params path =
        some (.ok (("status", some (status : ℝ)) :: criteria m (stopsAt m path.isSome s) best n N)) := by
  obtain ⟨st', h1, h2⟩ := run_ok s (st := ⟨params, path, 0, true⟩) (m := m) (by
    intro x hx; obtain ⟨v, hv, _⟩ := h x hx; simp [hv])
  obtain ⟨b1, b2⟩ := afterAll_best (m := m) (visited m path.isSome s) (st := ⟨params, path, 0, true⟩) rfl h
  refine ⟨_, b2, ?_⟩
  unfold report
  simp only [] at h1 h2
  rw [h1]
  simp only [auxinfo, h2.2.2, h2.2.1, b1, if_true]
  rfl

/-- C123. For any optimizer that ends at the best of the points evaluated, where the constraint does
not bind: the log likelihood reported is that at the returned parameters, and the AIC, corrected AIC
and BIC follow from it, the number of parameters and the number of rows of data. -/
theorem C123_reported (m : Model n) (N : Option ℕ) (status : ℤ) (s : Search n) (params : P n) (path : Option (List (P n × ℝ)))
    (h : ∀ x ∈ visited m path.isSome s, Fine m x)
    (x : P n) (hx : stopsAt m path.isSome s = x) (hin : x ∈ visited m path.isSome s)
    (hfree : feasible m x = x ∧ penalty m x = 0)
    (hbest : ∀ b ∈ visited m path.isSome s, ∀ v w, value m b = some v → value m x = some w → v ≤ w) :
    ∃ page l, report m false N status s params path = some (.ok page) ∧
      logLik m x = some l ∧
      page.lookup "status" = some (some (status : ℝ)) ∧
      page.lookup "log likelihood" = some (some l) ∧
      page.lookup "AIC" = some (some (2 * n - 2 * l)) ∧
      (∀ M, N = some M → 0 < M → page.lookup "BIC" = some (some (n * Real.log M - 2 * l))) ∧
      (∀ M, N = some M → M ≠ n + 1 → page.lookup "AIC_c" = some (some (2 * n - 2 * l + 2 * n * (n + 1) / (M - n - 1)))) := by
  obtain ⟨best, ⟨g1, g2⟩, hr⟩ := reported_ll m N status s params path h
  obtain ⟨w, hw, hpos⟩ := h x hin
  have hf : m.f x = some w := by
    unfold value at hw
    rw [hfree.1, hfree.2] at hw
    cases hm : m.f x with
    | none => rw [hm] at hw; simp at hw
    | some y => rw [hm] at hw; simpa using hw
  have hl : logLik m x = some (llOf m w) := by
    unfold logLik llOf
    rw [hf]
    cases hi : m.isLog with
    | true => simp
    | false => simp [hpos hi]
  have hll : (if best = 0 then logLik m x else some best) = some (llOf m w) := by
    split
    · exact hl
    · rename_i hb
      rcases g1 with e | ⟨b, hb1, v, hv, e⟩
      · exact absurd e hb
      · have hle := hbest b hb1 v w hv hw
        have h1 : llOf m w ≤ best := g2 (Or.inr ⟨x, hin, w, hw, rfl⟩)
        have h2 : llOf m v ≤ llOf m w := by
          obtain ⟨v', hv', hp'⟩ := h b hb1
          have : v' = v := by rw [hv] at hv'; exact (Option.some.inj hv').symm
          subst this
          unfold llOf
          cases hi : m.isLog with
          | true => simpa using hle
          | false => simpa using Real.log_le_log (hp' hi) hle
        rw [e] at h1 ⊢
        rw [le_antisymm h2 h1]
  rw [hx] at hr
  refine ⟨_, llOf m w, hr, hl, ?_, ?_, ?_, ?_, ?_⟩
  · simp [List.lookup]
  · simp [criteria, hll, List.lookup]
  · simp [criteria, hll, List.lookup]
  · rintro M rfl hM
    simp [criteria, hll, List.lookup, hM.ne']
  · rintro M rfl hM
    have : (M : ℝ) - n - 1 ≠ 0 := by
      intro h0
      apply hM
      have : (M : ℝ) = ((n + 1 : ℕ) : ℝ) := by push_cast; linarith
      exact_mod_cast this
    simp [criteria, hll, List.lookup, quot, this]

/-- C123 (refutation). A search that stops elsewhere than at its best point reports a log likelihood
that isn't the one at its parameters, when positive. -/
theorem C123_not_best_refuted :
    ∃ (m : Model 1) (s : Search 1), m.isLog = true ∧ m.c = none ∧ stopsAt m false s ∈ visited m false s ∧
      logLik m (stopsAt m false s) = some 3 ∧
      ∃ page, report m false none 0 s (fun _ => 0) none = some (.ok page) ∧ page.lookup "log likelihood" = some (some 5) := by
  refine ⟨⟨true, fun s => some (s 0), none, fun _ _ => 1⟩, .ask .f (fun _ => 5) fun _ _ _ => .ask .f (fun _ => 3) fun b _ _ => .stop b, rfl, rfl, ?_⟩
  set m : Model 1 := ⟨true, fun s => some (s 0), none, fun _ _ => 1⟩
  have hv : ∀ b : P 1, value m b = some (b 0) := fun b => by simp [value, m, feasible, penalty, constrain]
  have hn : ∀ b : P 1, nudged m b = b := fun b => by simp [nudged, m, penalty, constrain]
  refine ⟨by simp [stopsAt, visited, points, replyPoint, hn], by simp [stopsAt, replyPoint, hn, logLik, m], ?_⟩
  refine ⟨[("status", some ((0 : ℤ) : ℝ)), ("log likelihood", some 5), ("AIC", some (2 * (1 : ℕ) - 2 * 5))], ?_, ?_⟩
  · have e : ∀ (st : St 1) (b : P 1), negshell m st b = some (b, -(b 0), after m st b) := fun st b => by
      rw [negshell_some (hv b), hn]
    simp only [report, run, answer, e, Option.map_some]
    simp [auxinfo, after, hv, note, m, criteria]
    rw [max_eq_left (by norm_num : (3 : ℝ) ≤ 5)]
    simp
  · simp [List.lookup]

/-- C123 (refutation). After a conjugate gradient or Newton search, with information wanted (the
default), the count of parameters is read from freed memory. -/
theorem C123_freed_refuted (m : Model n) (N : Option ℕ) (status : ℤ) (s : Search n) (params : P n) (path : Option (List (P n × ℝ)))
    (h : ∀ x ∈ visited m path.isSome s, Fine m x) :
    report m true N status s params path = some .ub := by
  obtain ⟨st', h1, h2⟩ := run_ok s (st := ⟨params, path, 0, true⟩) (m := m) (by
    intro x hx; obtain ⟨v, hv, _⟩ := h x hx; simp [hv])
  obtain ⟨b1, _⟩ := afterAll_best (m := m) (visited m path.isSome s) (st := ⟨params, path, 0, true⟩) rfl h
  unfold report
  simp only [] at h1 h2
  rw [h1]
  simp [auxinfo, h2.2.2, b1]

/-- Nonvacuity of `C123_reported`: the sample search, 10 rows of data: log likelihood 0, AIC 2. -/
example : ∃ page, report sample false (some 10) 0 sampleSearch (fun _ => 0) none = some (.ok page) ∧
    page.lookup "log likelihood" = some (some 0) ∧ page.lookup "AIC" = some (some 2) := by
  have h1 := sample_at 1 (by norm_num)
  have h2 : value sample (fun _ => -2) = some (-3) := by simp [value, feasible, penalty, sample, constrain]; norm_num
  have hn : nudged sample (fun _ => 1) = fun _ => 1 := by simp [nudged, h1]
  have hv : visited sample false sampleSearch = [fun _ => -2, fun _ => 1] := by
    simp [visited, sampleSearch, points]
  have hs : stopsAt sample false sampleSearch = fun _ => 1 := by simp [stopsAt, sampleSearch, replyPoint, hn]
  obtain ⟨page, l, r, hl, _, a, b, _⟩ := C123_reported sample (some 10) 0 sampleSearch (fun _ => 0) none
    (by
      intro x hx
      change x ∈ visited sample false sampleSearch at hx
      rw [hv] at hx; simp at hx
      rcases hx with rfl | rfl
      · exact ⟨_, h2, by simp [sample]⟩
      · exact ⟨_, h1.1, by simp [sample]⟩)
    (fun _ => 1) hs (by change _ ∈ visited sample false sampleSearch; rw [hv]; simp) ⟨h1.2.2, h1.2.1⟩
    (by
      intro b hb v w hv1 hw1
      change b ∈ visited sample false sampleSearch at hb
      rw [hv] at hb; simp at hb
      rw [h1.1] at hw1
      simp at hw1
      rcases hb with rfl | rfl
      · rw [h2] at hv1; simp at hv1; rw [← hv1, ← hw1]; norm_num
      · rw [h1.1] at hv1; simp at hv1; rw [← hv1, ← hw1])
  have l0 : l = 0 := by simpa [logLik, sample] using hl.symm
  subst l0
  exact ⟨page, r, a, by rw [b]; norm_num⟩

end Apop.Mle.Shell
