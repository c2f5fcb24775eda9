import Verif.Pmf.Prob
import Mathlib.Algebra.BigOperators.Group.Finset.Basic
import Mathlib.Algebra.Order.BigOperators.Group.Finset

/-! # C67: the Kullback-Leibler divergence from a PMF to a PMF

Exact arithmetic over the reals, with the infinities and NaN. The branch for models other than PMFs, by random draws, is not modelled. -/

namespace Apop.Pmf
open Real

/-- A double: a real, an infinity, or NaN. -/
inductive X where
  | fin (x : ℝ)
  | pinf
  | ninf
  | nan

/-- IEEE addition. -/
noncomputable def X.add : X → X → X
  | .fin x, .fin y => .fin (x + y)
  | .nan, _ => .nan
  | _, .nan => .nan
  | .pinf, .ninf => .nan
  | .ninf, .pinf => .nan
  | .pinf, _ => .pinf
  | _, .pinf => .pinf
  | .ninf, _ => .ninf
  | _, .ninf => .ninf

/-- `pi * log(pi/qi)` for a positive `pi` and `qi` of at least zero: by zero, infinity. -/
noncomputable def klTerm (p q : ℝ) : X := if q = 0 then .pinf else .fin (p * log (p / q))

/-- One row, apop_stats.m4.c:747-757: what is added to `div`. The `break` in `Apop_stopif` only leaves the macro's own `do ... while(0)`, so after minus infinity the term is added as well. -/
noncomputable def klRow (tgt : Model) (p : ℝ) (r : Row) (div : X) : X :=
  if p = 0 then div
  else
    let q := pmfP tgt [r]
    let div := if q = 0 then div.add .ninf else div
    div.add (klTerm p q)

/-- The loop, apop_stats.m4.c:746-757, in the order of the rows from `i` on. (Threads add up parts of it; addition of reals, infinities and NaN does not depend on the order.) -/
noncomputable def klLoop (m tgt : Model) : ℕ → List Row → X → X
  | _, [], div => div
  | i, r :: rows, div => klLoop m tgt (i + 1) rows (klRow tgt (rowMass m i) r div)

/-- `apop_kl_divergence` for a PMF `m`, apop_stats.m4.c:742-757. -/
noncomputable def klDivergence (m tgt : Model) : X := klLoop m tgt 0 m.rows (.fin 0)

/-! ## Specification -/

/-- Σ p log(p/q) over the points where p is not zero. -/
noncomputable def klSpec (m tgt : Model) : ℝ := ∑ r ∈ m.rows.toFinset, if m.prob r = 0 then 0 else m.prob r * log (m.prob r / tgt.prob r)

/-- Each point that has mass in `m` has mass in `tgt`. -/
def Synced (m tgt : Model) : Prop := ∀ r, m.prob r ≠ 0 → tgt.prob r ≠ 0

/-! ## Proofs -/

theorem X.add_comm (a b : X) : a.add b = b.add a := by
  cases a <;> cases b <;> simp [X.add, _root_.add_comm]

theorem X.add_assoc (a b c : X) : (a.add b).add c = a.add (b.add c) := by
  cases a <;> cases b <;> cases c <;> simp [X.add, _root_.add_assoc]

theorem prob_single {m : Model} (ok : m.Ok) (hd : m.Distinct) (r : Row) : pmfP m [r] = m.prob r := by
  rw [C65_prob m ok hd]; simp

theorem rowMass_prob {m : Model} (ok : m.Ok) (hd : m.Distinct) {i : ℕ} {r : Row} (h : m.rows[i]? = some r) : rowMass m i = m.prob r := by
  rw [rowMass_eq (lt_of_getElem? h), Model.prob, Model.table, mass_at hd (startWeights_length ok).symm h]

theorem klLoop_synced {m tgt : Model} (ok : m.Ok) (hd : m.Distinct) (ok' : tgt.Ok) (hd' : tgt.Distinct) (hs : Synced m tgt) :
    ∀ (rows : List Row) (i : ℕ) (div : ℝ), (∀ j r, rows[j]? = some r → m.rows[i + j]? = some r) →
    klLoop m tgt i rows (.fin div) = .fin (div + (rows.map (fun r => if m.prob r = 0 then 0 else m.prob r * log (m.prob r / tgt.prob r))).sum)
  | [], i, div, _ => by simp [klLoop]
  | r :: rows, i, div, h => by
    have h0 := rowMass_prob ok hd (h 0 r (by simp))
    have hrest : ∀ j s, rows[j]? = some s → m.rows[i + 1 + j]? = some s := by
      intro j s hj
      have := h (j + 1) s (by simpa using hj)
      rwa [show i + (j + 1) = i + 1 + j by omega] at this
    rw [klLoop]
    simp only [Nat.add_zero] at h0
    rw [h0]
    by_cases hp : m.prob r = 0
    · simp only [klRow, hp, if_true]
      rw [klLoop_synced ok hd ok' hd' hs rows (i + 1) div hrest]
      simp [hp]
    · have hq := hs r hp
      simp only [klRow, hp, if_false, prob_single ok' hd', hq, klTerm, X.add]
      rw [klLoop_synced ok hd ok' hd' hs rows (i + 1) _ hrest]
      simp only [List.map_cons, hp, if_false, List.sum_cons]
      congr 1; ring

/-- **C67 (value).** Two PMFs, in neither of which a row is given twice, `tgt` having mass wherever `from` has: the sum of p log(p/q). -/
theorem C67_value (m tgt : Model) (ok : m.Ok) (hd : m.Distinct) (ok' : tgt.Ok) (hd' : tgt.Distinct) (hs : Synced m tgt) :
    klDivergence m tgt = .fin (klSpec m tgt) := by
  rw [klDivergence, klLoop_synced ok hd ok' hd' hs m.rows 0 0 (by simp), zero_add]
  unfold klSpec
  rw [List.sum_toFinset _ hd]

theorem prob_nonneg {m : Model} (ok : m.Ok) (r : Row) : 0 ≤ m.prob r := by
  have hsw : ∀ w ∈ startWeights m.rows m.weights, 0 ≤ w := by
    cases h : m.weights with
    | none => intro w hw; simp only [startWeights, List.mem_replicate] at hw; rw [hw.2]; exact zero_le_one
    | some ws => exact ok.nonneg ws h
  apply div_nonneg
  · apply List.sum_nonneg
    intro x hx
    obtain ⟨q, hq, rfl⟩ := List.mem_map.1 hx
    exact hsw _ (List.of_mem_zip (List.mem_filter.1 hq).1).2
  · exact List.sum_nonneg hsw

theorem prob_absent {m : Model} {r : Row} (h : r ∉ m.rows) : m.prob r = 0 := by
  simp [Model.prob, Model.table, mass_absent h]

theorem firsts_nodup_eq {l : List Row} (h : l.Nodup) : firsts l = l := by
  induction l with
  | nil => rfl
  | cons x l ih =>
    rw [List.nodup_cons] at h
    rw [firsts, ih h.2, List.filter_eq_self.2]
    intro a ha
    simp only [ne_eq, decide_not, Bool.not_eq_eq_eq_not, Bool.not_true, decide_eq_false_iff_not]
    rintro rfl; exact h.1 ha

theorem prob_sum {m : Model} (ok : m.Ok) (hd : m.Distinct) : ∑ r ∈ m.rows.toFinset, m.prob r = 1 := by
  rw [List.sum_toFinset _ hd]
  have := C65_sum_one m ok
  rwa [firsts_nodup_eq hd] at this

/-- Over any set of points the probabilities sum to at most one. -/
theorem prob_sum_le {m : Model} (ok : m.Ok) (hd : m.Distinct) (F : Finset Row) : ∑ r ∈ F, m.prob r ≤ 1 := by
  rw [← prob_sum ok hd]
  calc ∑ r ∈ F, m.prob r ≤ ∑ r ∈ F ∪ m.rows.toFinset, m.prob r :=
        Finset.sum_le_sum_of_subset_of_nonneg Finset.subset_union_left (fun r _ _ => prob_nonneg ok r)
    _ = ∑ r ∈ m.rows.toFinset, m.prob r := by
        symm
        apply Finset.sum_subset Finset.subset_union_right
        intro r _ hr
        exact prob_absent (fun h => hr (List.mem_toFinset.2 h))

theorem term_ge {p q : ℝ} (hp : 0 < p) (hq : 0 < q) : p - q ≤ p * log (p / q) := by
  have := log_le_sub_one_of_pos (show 0 < q / p by positivity)
  have e : log (p / q) = - log (q / p) := by rw [← log_inv, inv_div]
  rw [e]
  have := mul_le_mul_of_nonneg_left this hp.le
  have e2 : p * (q / p - 1) = q - p := by field_simp
  linarith

theorem term_eq {p q : ℝ} (hp : 0 < p) (hq : 0 < q) (h : p * log (p / q) = p - q) : p = q := by
  by_contra hne
  have hne' : q / p ≠ 1 := fun h => hne ((div_eq_one_iff_eq hp.ne').1 h).symm
  have := log_lt_sub_one_of_pos (show 0 < q / p by positivity) hne'
  have e : log (p / q) = - log (q / p) := by rw [← log_inv, inv_div]
  rw [e] at h
  have := mul_lt_mul_of_pos_left this hp
  have e2 : p * (q / p - 1) = q - p := by field_simp
  linarith

/-- The points with mass in `m`. -/
noncomputable def supp (m : Model) : Finset Row := m.rows.toFinset.filter (fun r => m.prob r ≠ 0)

theorem klSpec_supp (m tgt : Model) : klSpec m tgt = ∑ r ∈ supp m, m.prob r * log (m.prob r / tgt.prob r) := by
  unfold klSpec supp
  rw [Finset.sum_filter]
  apply Finset.sum_congr rfl
  intro r _
  by_cases h : m.prob r = 0 <;> simp [h]

theorem supp_sum {m : Model} (ok : m.Ok) (hd : m.Distinct) : ∑ r ∈ supp m, m.prob r = 1 := by
  rw [← prob_sum ok hd]
  unfold supp
  rw [Finset.sum_filter]
  apply Finset.sum_congr rfl
  intro r _
  by_cases h : m.prob r = 0 <;> simp [h]

theorem supp_pos {m : Model} (ok : m.Ok) {r : Row} (h : r ∈ supp m) : 0 < m.prob r :=
  lt_of_le_of_ne (prob_nonneg ok r) (Ne.symm (Finset.mem_filter.1 h).2)

theorem supp_pos' {m tgt : Model} (ok' : tgt.Ok) (hs : Synced m tgt) {r : Row} (h : r ∈ supp m) : 0 < tgt.prob r :=
  lt_of_le_of_ne (prob_nonneg ok' r) (Ne.symm (hs r (Finset.mem_filter.1 h).2))

theorem sum_terms {m tgt : Model} (ok : m.Ok) (hd : m.Distinct) (ok' : tgt.Ok) (hd' : tgt.Distinct) : 0 ≤ ∑ r ∈ supp m, (m.prob r - tgt.prob r) := by
  rw [Finset.sum_sub_distrib, supp_sum ok hd]
  have := prob_sum_le ok' hd' (supp m)
  linarith

/-- **C67 (never negative).** -/
theorem C67_nonneg (m tgt : Model) (ok : m.Ok) (hd : m.Distinct) (ok' : tgt.Ok) (hd' : tgt.Distinct) (hs : Synced m tgt) :
    ∃ d, klDivergence m tgt = .fin d ∧ 0 ≤ d := by
  refine ⟨_, C67_value m tgt ok hd ok' hd' hs, ?_⟩
  rw [klSpec_supp]
  refine (sum_terms ok hd ok' hd').trans (Finset.sum_le_sum ?_)
  intro r hr
  exact term_ge (supp_pos ok hr) (supp_pos' ok' hs hr)

/-- **C67 (zero).** Zero exactly if the two give every point the same probability. -/
theorem C67_zero_iff (m tgt : Model) (ok : m.Ok) (hd : m.Distinct) (ok' : tgt.Ok) (hd' : tgt.Distinct) (hs : Synced m tgt) :
    klDivergence m tgt = .fin 0 ↔ ∀ r, m.prob r = tgt.prob r := by
  rw [C67_value m tgt ok hd ok' hd' hs, X.fin.injEq, klSpec_supp]
  constructor
  · intro h
    have hge : ∀ r ∈ supp m, m.prob r - tgt.prob r ≤ m.prob r * log (m.prob r / tgt.prob r) := fun r hr => term_ge (supp_pos ok hr) (supp_pos' ok' hs hr)
    have h0 := sum_terms ok hd ok' hd'
    have hle := Finset.sum_le_sum hge
    have heq : ∑ r ∈ supp m, (m.prob r - tgt.prob r) = ∑ r ∈ supp m, m.prob r * log (m.prob r / tgt.prob r) := by linarith
    have hall := (Finset.sum_eq_sum_iff_of_le hge).1 heq
    have hsame : ∀ r ∈ supp m, m.prob r = tgt.prob r := fun r hr => term_eq (supp_pos ok hr) (supp_pos' ok' hs hr) (hall r hr).symm
    intro r
    by_cases hr : r ∈ supp m
    · exact hsame r hr
    · have hm0 : m.prob r = 0 := by
        by_contra hne
        apply hr
        refine Finset.mem_filter.2 ⟨List.mem_toFinset.2 ?_, hne⟩
        by_contra hno
        exact hne (prob_absent hno)
      have hq : ∑ s ∈ supp m, tgt.prob s = 1 := by rw [← Finset.sum_congr rfl hsame, supp_sum ok hd]
      have hi := prob_sum_le ok' hd' (insert r (supp m))
      rw [Finset.sum_insert hr, hq] at hi
      have := prob_nonneg ok' r
      rw [hm0]
      linarith
  · intro h
    apply Finset.sum_eq_zero
    intro r hr
    rw [← h r, div_self (supp_pos ok hr).ne', log_one, mul_zero]

theorem klLoop_nan {m tgt : Model} : ∀ (rows : List Row) (i : ℕ), klLoop m tgt i rows .nan = .nan
  | [], _ => rfl
  | r :: rows, i => by
    have : klRow tgt (rowMass m i) r .nan = .nan := by
      unfold klRow
      split
      · rfl
      · simp only; split <;> rfl
    rw [klLoop, this, klLoop_nan]

theorem klLoop_unsynced {m tgt : Model} (ok : m.Ok) (hd : m.Distinct) (ok' : tgt.Ok) (hd' : tgt.Distinct) :
    ∀ (rows : List Row) (i : ℕ) (div : ℝ), (∀ j r, rows[j]? = some r → m.rows[i + j]? = some r) → (∃ r ∈ rows, m.prob r ≠ 0 ∧ tgt.prob r = 0) →
    klLoop m tgt i rows (.fin div) = .nan
  | [], i, div, _, hr => by simp at hr
  | r :: rows, i, div, h, hr => by
    have h0 := rowMass_prob ok hd (h 0 r (by simp))
    have hrest : ∀ j s, rows[j]? = some s → m.rows[i + 1 + j]? = some s := by
      intro j s hj
      have := h (j + 1) s (by simpa using hj)
      rwa [show i + (j + 1) = i + 1 + j by omega] at this
    rw [klLoop]
    simp only [Nat.add_zero] at h0
    rw [h0]
    by_cases hb : m.prob r ≠ 0 ∧ tgt.prob r = 0
    · have : klRow tgt (m.prob r) r (.fin div) = .nan := by
        simp only [klRow, hb.1, if_false, prob_single ok' hd', hb.2, if_true, klTerm, X.add]
      rw [this, klLoop_nan]
    · have hex : ∃ s ∈ rows, m.prob s ≠ 0 ∧ tgt.prob s = 0 := by
        obtain ⟨s, hs, hs'⟩ := hr
        rcases List.mem_cons.1 hs with rfl | hs
        · exact absurd hs' hb
        · exact ⟨s, hs, hs'⟩
      have : ∃ x, klRow tgt (m.prob r) r (.fin div) = .fin x := by
        by_cases hp : m.prob r = 0
        · exact ⟨div, by simp [klRow, hp]⟩
        · have hq : tgt.prob r ≠ 0 := fun h => hb ⟨hp, h⟩
          exact ⟨div + m.prob r * log (m.prob r / tgt.prob r), by simp only [klRow, hp, if_false, prob_single ok' hd', hq, klTerm, X.add]⟩
      obtain ⟨x, hx⟩ := this
      rw [hx]
      exact klLoop_unsynced ok hd ok' hd' rows (i + 1) x hrest hex

/-- Not as documented: if `from` has mass where `tgt` has none, the result is not minus infinity but NaN. -/
theorem C67_unsynced_nan (m tgt : Model) (ok : m.Ok) (hd : m.Distinct) (ok' : tgt.Ok) (hd' : tgt.Distinct) (hs : ¬ Synced m tgt) : klDivergence m tgt = .nan := by
  simp only [Synced, not_forall, not_not] at hs
  obtain ⟨r, h1, h2⟩ := hs
  have hr : r ∈ m.rows := by
    by_contra h
    exact h1 (prob_absent h)
  exact klLoop_unsynced ok hd ok' hd' m.rows 0 0 (by simp) ⟨r, hr, h1, h2⟩

/-- Two PMFs on two points, both with mass at both. -/
example : ∃ m tgt : Model, m.Ok ∧ m.Distinct ∧ tgt.Ok ∧ tgt.Distinct ∧ Synced m tgt ∧ m.prob ⟨some (.fin 0), none, []⟩ ≠ tgt.prob ⟨some (.fin 0), none, []⟩ := by
  let row : ℚ → Row := fun q => ⟨some (.fin q), none, []⟩
  have h01 : row 0 ≠ row 1 := by decide +kernel
  refine ⟨⟨[row 0, row 1], none⟩, ⟨[row 0, row 1], some [1, 2]⟩, ⟨by simp, by simp, by simp, by simp⟩, by simp [Model.Distinct, h01], ⟨by simp, ?_, ?_, ?_⟩, by simp [Model.Distinct, h01], ?_, ?_⟩
  · intro ws h; cases h; rfl
  · intro ws h; cases h; intro w hw; simp at hw; rcases hw with rfl | rfl <;> norm_num
  · intro ws h; cases h; norm_num
  · intro r hr
    have : r = row 0 ∨ r = row 1 := by
      by_contra h
      exact hr (prob_absent (by simpa using h))
    rcases this with rfl | rfl
    · norm_num [Model.prob, Model.table, Model.totalWeight, startWeights, mass, h01, h01.symm]
    · norm_num [Model.prob, Model.table, Model.totalWeight, startWeights, mass, h01, h01.symm]
  · change Model.prob _ (row 0) ≠ Model.prob _ (row 0)
    norm_num [Model.prob, Model.table, Model.totalWeight, startWeights, mass, h01, h01.symm, List.replicate]

end Apop.Pmf
