import Verif.Fisher.F4Thms

/-! # The search of f4xact finds the largest sum -/

namespace Apop.Fisher.F3
open Apop Apop.Fisher

theorem f11act_perm {l : List ℕ} {i : ℕ} (h : i < l.length) : (l.getD i 0 :: f11act l i).Perm l := by
  unfold f11act
  conv_rhs => rw [← List.take_append_drop i l, List.drop_eq_getElem_cons h]
  rw [List.getD_eq_getElem _ _ h]
  exact List.perm_middle.symm

theorem f11act_erase {l : List ℕ} {i : ℕ} (h : i < l.length) : (l.erase (l.getD i 0)).Perm (f11act l i) := by
  have hm : l.getD i 0 ∈ l := by rw [List.getD_eq_getElem _ _ h]; exact List.getElem_mem h
  exact ((List.perm_cons_erase hm).symm.trans (f11act_perm h).symm).cons_inv

theorem f8ins_perm (s : ℕ) (l : List ℕ) : (f8ins s l).Perm (s :: l) := by
  induction l with
  | nil => exact List.Perm.refl _
  | cons x l ih =>
    unfold f8ins
    split
    · exact List.Perm.refl _
    · exact (ih.cons x).trans (List.Perm.swap _ _ _)

theorem f8xact_perm (l : List ℕ) (s i : ℕ) : (f8xact l s i).Perm (s :: f11act l i) := by
  unfold f8xact f11act
  exact ((f8ins_perm s _).append_left _).trans List.perm_middle

theorem f11act_sorted {l : List ℕ} (h : l.Pairwise (· ≥ ·)) (i : ℕ) : (f11act l i).Pairwise (· ≥ ·) := by
  unfold f11act
  rw [← List.eraseIdx_eq_take_drop_succ]
  exact h.sublist (List.eraseIdx_sublist _ _)

theorem f8ins_sorted {s : ℕ} {l : List ℕ} (h : l.Pairwise (· ≥ ·)) : (f8ins s l).Pairwise (· ≥ ·) := by
  induction l with
  | nil => exact List.pairwise_singleton _ _
  | cons x l ih =>
    rw [List.pairwise_cons] at h
    unfold f8ins
    split
    · rename_i hx
      rw [List.pairwise_cons, List.pairwise_cons]
      refine ⟨?_, h⟩
      intro y hy
      rcases List.mem_cons.mp hy with e | e
      · rw [e]; exact hx
      · exact le_trans (h.1 y e) hx
    · rename_i hx
      rw [List.pairwise_cons]
      refine ⟨?_, ih h.2⟩
      intro y hy
      rcases List.mem_cons.mp ((f8ins_perm s l).mem_iff.mp hy) with e | e
      · show y ≤ x; omega
      · exact h.1 y e

theorem f8xact_sorted {l : List ℕ} (h : l.Pairwise (· ≥ ·)) {s i : ℕ} (hi : i < l.length) (hs : s ≤ l.getD i 0) :
    (f8xact l s i).Pairwise (· ≥ ·) := by
  unfold f8xact
  have hl : (l.take i ++ l.drop i).Pairwise (· ≥ ·) := by rw [List.take_append_drop]; exact h
  rw [List.pairwise_append] at hl
  obtain ⟨h1, h2, h3⟩ := hl
  rw [List.drop_eq_getElem_cons hi] at h2 h3
  rw [List.getD_eq_getElem _ _ hi] at hs
  rw [List.pairwise_append]
  refine ⟨h1, f8ins_sorted (List.pairwise_cons.mp h2).2, ?_⟩
  intro a ha b hb
  rcases List.mem_cons.mp ((f8ins_perm s _).mem_iff.mp hb) with e | e
  · have := h3 a ha _ List.mem_cons_self
    show b ≤ a
    omega
  · exact h3 a ha b (List.mem_cons_of_mem _ e)

theorem f11act_length {l : List ℕ} {i : ℕ} (h : i < l.length) : (f11act l i).length + 1 = l.length := by
  have := (f11act_perm h).length_eq
  simpa using this

theorem f8xact_length {l : List ℕ} {s i : ℕ} (h : i < l.length) : (f8xact l s i).length = l.length := by
  rw [(f8xact_perm l s i).length_eq, List.length_cons, f11act_length h]

theorem next_tab {r c : List ℕ} {i j : ℕ} (hi : i < r.length) (hj : j < c.length) {q : ℝ}
    (h : Rest (r.getD i 0) (c.getD j 0) (r.erase (r.getD i 0)) (c.erase (c.getD j 0)) q) : Tab (next r c i j).1 (next r c i j).2 q := by
  unfold Rest at h
  unfold next
  split at h
  · rename_i e; rw [if_pos e]
    exact h.perm (f11act_erase hi) (f11act_erase hj)
  · rename_i e; rw [if_neg e]
    split at h
    · rename_i e2; rw [if_pos e2]
      exact h.perm (((f11act_erase hi).cons _).trans (f8xact_perm _ _ _).symm) (f11act_erase hj)
    · rename_i e2; rw [if_neg e2]
      exact h.perm (f11act_erase hi) (((f11act_erase hj).cons _).trans (f8xact_perm _ _ _).symm)

theorem next_sorted {r c : List ℕ} {i j : ℕ} (hi : i < r.length) (hj : j < c.length) (hr : r.Pairwise (· ≥ ·)) (hc : c.Pairwise (· ≥ ·)) :
    (next r c i j).1.Pairwise (· ≥ ·) ∧ (next r c i j).2.Pairwise (· ≥ ·) := by
  unfold next
  split
  · exact ⟨f11act_sorted hr _, f11act_sorted hc _⟩
  · split
    · exact ⟨f8xact_sorted hr hi (Nat.sub_le _ _), f11act_sorted hc _⟩
    · exact ⟨f11act_sorted hr _, f8xact_sorted hc hj (Nat.sub_le _ _)⟩

theorem next_length {r c : List ℕ} {i j : ℕ} (hi : i < r.length) (hj : j < c.length) :
    r.length ≤ (next r c i j).1.length + 1 ∧ c.length ≤ (next r c i j).2.length + 1
      ∧ (next r c i j).1.length + (next r c i j).2.length + 1 ≤ r.length + c.length := by
  have h1 := f11act_length hi
  have h2 := f11act_length hj
  unfold next
  split
  · simp only []; omega
  · split
    · simp only [f8xact_length hi]; omega
    · simp only [f8xact_length hj]; omega

/-! ## Which cells are used -/

theorem sorted_getD {l : List ℕ} (h : l.Pairwise (· ≥ ·)) {i j : ℕ} (hij : i ≤ j) (hj : j < l.length) : l.getD j 0 ≤ l.getD i 0 := by
  rw [List.getD_eq_getElem _ _ hj, List.getD_eq_getElem _ _ (lt_of_le_of_lt hij hj)]
  rcases Nat.eq_or_lt_of_le hij with e | e
  · subst e; exact le_refl _
  · exact (List.pairwise_iff_getElem.mp h) i j _ _ e

theorem tried_mem {l : List ℕ} (h : l.Pairwise (· ≥ ·)) {m : ℕ} (hm : m ≤ l.length) {k : ℕ} (hk : k < m) :
    ∃ k' ∈ tried l m, l.getD k' 0 = l.getD k 0 := by
  induction k with
  | zero => exact ⟨0, by unfold tried; rw [List.mem_filter, List.mem_range]; simp [hk], rfl⟩
  | succ k ih =>
    by_cases hlt : l.getD (k + 1) 0 < l.getD k 0
    · refine ⟨k + 1, ?_, rfl⟩
      unfold tried
      rw [List.mem_filter, List.mem_range]
      refine ⟨hk, ?_⟩
      simp only [Nat.add_sub_cancel, decide_eq_true_eq]
      exact Or.inr hlt
    · obtain ⟨k', h1, h2⟩ := ih (by omega)
      refine ⟨k', h1, ?_⟩
      have := sorted_getD h (show k ≤ k + 1 by omega) (by omega)
      omega

theorem tried_lt {l : List ℕ} {m k : ℕ} (h : k ∈ tried l m) : k < m := by
  unfold tried at h
  exact List.mem_range.mp (List.mem_filter.mp h).1

theorem mem_index {l : List ℕ} {x : ℕ} (h : x ∈ l) : ∃ k < l.length, l.getD k 0 = x := by
  obtain ⟨k, hk, e⟩ := List.mem_iff_getElem.mp h
  exact ⟨k, hk, by rw [List.getD_eq_getElem _ _ hk]; exact e⟩

/-- Rows for the first column: all of them. -/
theorem use_all {r c : List ℕ} (hr : r.Pairwise (· ≥ ·)) (hc : c.Pairwise (· ≥ ·)) (hr1 : r ≠ []) (hc1 : c ≠ []) {q : ℝ} (h : Tab r c q) :
    ∃ k ∈ tried r r.length, ∃ q', Rest (r.getD k 0) (c.getD 0 0) (r.erase (r.getD k 0)) (c.erase (c.getD 0 0)) q'
      ∧ q ≤ lf (min (r.getD k 0) (c.getD 0 0)) + q' := by
  match c, hc1 with
  | z :: c, _ =>
    rw [List.pairwise_cons] at hc
    obtain ⟨x, hx, q', h1, h2⟩ := tab_peelJ h hr1 hc.1
    obtain ⟨k, hk, e⟩ := mem_index hx
    obtain ⟨k', hk', e'⟩ := tried_mem hr (le_refl _) hk
    refine ⟨k', hk', q', ?_, ?_⟩
    · rw [e', e]; simpa using h1
    · rw [e', e]; simpa using h2

/-- Rows for the first column: all but the last, if no row total is larger. -/
theorem use_most {r c : List ℕ} (hr : r.Pairwise (· ≥ ·)) (hr1 : 2 ≤ r.length) (hc1 : c ≠ [])
    (hle : r.headD 0 ≤ c.headD 0) {q : ℝ} (h : Tab r c q) :
    ∃ k ∈ tried r (r.length - 1), ∃ q', Rest (r.getD k 0) (c.getD 0 0) (r.erase (r.getD k 0)) (c.erase (c.getD 0 0)) q'
      ∧ q ≤ lf (min (r.getD k 0) (c.getD 0 0)) + q' := by
  match c, hc1 with
  | z :: c, _ =>
    have hne : r ≠ [] := by rintro rfl; simp at hr1
    have hsplit : r = r.dropLast ++ [r.getLast hne] := (List.dropLast_append_getLast hne).symm
    have hp : r.Perm (r.getLast hne :: r.dropLast) := by
      conv_lhs => rw [hsplit]
      exact List.perm_append_singleton _ _
    have hmin : ∀ x ∈ r.dropLast, r.getLast hne ≤ x := by
      rw [hsplit, List.pairwise_append] at hr
      intro x hx
      exact hr.2.2 x hx _ (List.mem_singleton_self _)
    have hhead : ∀ x ∈ r, x ≤ z := by
      intro x hx
      obtain ⟨k, hk, e⟩ := mem_index hx
      have := sorted_getD hr (Nat.zero_le k) hk
      have h0 : r.getD 0 0 = r.headD 0 := by cases r <;> simp
      have hz : (z :: c).headD 0 = z := rfl
      rw [hz] at hle
      omega
    obtain ⟨x, hx, q', h1, h2⟩ := tab_peelK (h.perm hp (List.Perm.refl _))
      (by intro e; have := congrArg List.length e; simp at this; omega)
      (fun x hx => hhead x (hp.mem_iff.mpr hx)) hmin
    obtain ⟨k, hk, e⟩ := mem_index hx
    rw [List.length_dropLast] at hk
    have e2 : r.getD k 0 = x := by
      rw [← e, List.getD_eq_getElem _ _ (by omega), List.getD_eq_getElem _ _ (by rw [List.length_dropLast]; exact hk), List.getElem_dropLast]
    obtain ⟨k', hk', e'⟩ := tried_mem hr (Nat.sub_le _ _) hk
    refine ⟨k', hk', q', ?_, ?_⟩
    · rw [e', e2]
      have := h1.perm (hp.symm.erase x) (List.Perm.refl c)
      simpa using this
    · rw [e', e2]; simpa using h2

theorem cells_spec {r c : List ℕ} (hr : r.Pairwise (· ≥ ·)) (hc : c.Pairwise (· ≥ ·)) (hr1 : 2 ≤ r.length) (hc1 : 2 ≤ c.length)
    {q : ℝ} (h : Tab r c q) :
    ∃ p ∈ cells r c, ∃ q', Rest (r.getD p.1 0) (c.getD p.2 0) (r.erase (r.getD p.1 0)) (c.erase (c.getD p.2 0)) q'
      ∧ q ≤ lf (min (r.getD p.1 0) (c.getD p.2 0)) + q' := by
  have hrn : r ≠ [] := by rintro rfl; simp at hr1
  have hcn : c ≠ [] := by rintro rfl; simp at hc1
  have rows_all : choose r c = (r.length, true) → ∃ p ∈ cells r c, ∃ q', Rest (r.getD p.1 0) (c.getD p.2 0) (r.erase (r.getD p.1 0)) (c.erase (c.getD p.2 0)) q'
      ∧ q ≤ lf (min (r.getD p.1 0) (c.getD p.2 0)) + q' := by
    intro e
    obtain ⟨k, hk, q', a, b⟩ := use_all hr hc hrn hcn h
    refine ⟨(k, 0), ?_, q', a, b⟩
    unfold cells; rw [e, if_pos rfl]; exact List.mem_map.mpr ⟨k, hk, rfl⟩
  have rows_most : r.headD 0 ≤ c.headD 0 → choose r c = (r.length - 1, true) → ∃ p ∈ cells r c, ∃ q', Rest (r.getD p.1 0) (c.getD p.2 0) (r.erase (r.getD p.1 0)) (c.erase (c.getD p.2 0)) q'
      ∧ q ≤ lf (min (r.getD p.1 0) (c.getD p.2 0)) + q' := by
    intro hle e
    obtain ⟨k, hk, q', a, b⟩ := use_most hr hr1 hcn hle h
    refine ⟨(k, 0), ?_, q', a, b⟩
    unfold cells; rw [e, if_pos rfl]; exact List.mem_map.mpr ⟨k, hk, rfl⟩
  have cols_all : choose r c = (c.length, false) → ∃ p ∈ cells r c, ∃ q', Rest (r.getD p.1 0) (c.getD p.2 0) (r.erase (r.getD p.1 0)) (c.erase (c.getD p.2 0)) q'
      ∧ q ≤ lf (min (r.getD p.1 0) (c.getD p.2 0)) + q' := by
    intro e
    obtain ⟨k, hk, q', a, b⟩ := use_all hc hr hcn hrn h.flip
    refine ⟨(0, k), ?_, q', a.flip, by rw [Nat.min_comm]; exact b⟩
    unfold cells; rw [e, if_neg (by simp)]; exact List.mem_map.mpr ⟨k, hk, rfl⟩
  have cols_most : c.headD 0 ≤ r.headD 0 → choose r c = (c.length - 1, false) → ∃ p ∈ cells r c, ∃ q', Rest (r.getD p.1 0) (c.getD p.2 0) (r.erase (r.getD p.1 0)) (c.erase (c.getD p.2 0)) q'
      ∧ q ≤ lf (min (r.getD p.1 0) (c.getD p.2 0)) + q' := by
    intro hle e
    obtain ⟨k, hk, q', a, b⟩ := use_most hc hc1 hrn hle h.flip
    refine ⟨(0, k), ?_, q', a.flip, by rw [Nat.min_comm]; exact b⟩
    unfold cells; rw [e, if_neg (by simp)]; exact List.mem_map.mpr ⟨k, hk, rfl⟩
  by_cases h1 : c.headD 0 < r.headD 0
  · by_cases h2 : c.length ≤ r.length
    · exact cols_most h1.le (by unfold choose; rw [if_pos h1, if_pos h2])
    · exact rows_all (by unfold choose; rw [if_pos h1, if_neg h2])
  · by_cases h2 : r.headD 0 < c.headD 0
    · by_cases h3 : r.length ≤ c.length
      · exact rows_most h2.le (by unfold choose; rw [if_neg h1, if_pos h2, if_pos h3])
      · exact cols_all (by unfold choose; rw [if_neg h1, if_pos h2, if_neg h3])
    · by_cases h3 : r.length ≤ c.length
      · exact rows_most (by omega) (by unfold choose; rw [if_neg h1, if_neg h2, if_pos h3])
      · exact cols_most (by omega) (by unfold choose; rw [if_neg h1, if_neg h2, if_neg h3])

theorem choose_lt {r c : List ℕ} : ((choose r c).2 = true → (choose r c).1 ≤ r.length) ∧ ((choose r c).2 = false → (choose r c).1 ≤ c.length) := by
  unfold choose
  split
  · split <;> simp
  · split
    · split <;> simp
    · split <;> simp

theorem cells_lt {r c : List ℕ} (hr1 : 2 ≤ r.length) (hc1 : 2 ≤ c.length) {p : ℕ × ℕ} (h : p ∈ cells r c) : p.1 < r.length ∧ p.2 < c.length := by
  unfold cells at h
  split at h
  · rename_i e
    obtain ⟨k, hk, rfl⟩ := List.mem_map.mp h
    have := tried_lt hk
    have := choose_lt.1 e
    simp only []; omega
  · rename_i e
    obtain ⟨k, hk, rfl⟩ := List.mem_map.mp h
    have := tried_lt hk
    have := choose_lt.2 (by simpa using e)
    simp only []; omega

/-! ## The search -/

theorem leaf_run {dspt y amx a : ℝ} (h : leaf dspt y amx = .run a) : y ≤ a ∧ amx ≤ a := by
  unfold leaf at h
  split at h
  · rename_i h1
    split at h
    · cases h
    · simp only [R4.run.injEq] at h; rw [← h]; exact ⟨le_refl _, h1.le⟩
  · rename_i h1
    simp only [R4.run.injEq] at h; rw [← h]; exact ⟨not_lt.mp h1, le_refl _⟩

theorem endPath_run {fact : Fact} (hf : FactOK fact) {dspt y amx a : ℝ} {l : List ℕ}
    (h : endPath dspt y amx (sumFact fact (l.map (fun x : ℕ => (x : ℤ)))) = .run a) : y + (l.map lf).sum ≤ a ∧ amx ≤ a := by
  cases hs : sumFact fact (l.map (fun x : ℕ => (x : ℤ))) with
  | ub => rw [hs] at h; cases h
  | ok s =>
    rw [hs] at h
    rw [← sumFact_spec hf hs]
    exact leaf_run h

theorem each_mono {f : ℕ × ℕ → ℝ → R4} {ps : List (ℕ × ℕ)} (hf : ∀ p ∈ ps, ∀ a b, f p a = .run b → a ≤ b) :
    ∀ {a b}, each f ps a = .run b → a ≤ b := by
  induction ps with
  | nil => intro a b h; simp only [each, R4.run.injEq] at h; exact h.le
  | cons p ps ih =>
    intro a b h
    unfold each at h
    split at h
    · rename_i a' ha
      exact (hf p (by simp) _ _ ha).trans (ih (fun p hp => hf p (by simp [hp])) h)
    · cases h
    · cases h

theorem each_reach {f : ℕ × ℕ → ℝ → R4} {ps : List (ℕ × ℕ)} (hf : ∀ p ∈ ps, ∀ a b, f p a = .run b → a ≤ b) {p : ℕ × ℕ} (hp : p ∈ ps) {B : ℝ}
    (hB : ∀ a b, f p a = .run b → B ≤ b) : ∀ {a b}, each f ps a = .run b → B ≤ b := by
  induction ps with
  | nil => cases hp
  | cons p' ps ih =>
    intro a b h
    unfold each at h
    split at h
    · rename_i a' ha
      rcases List.mem_cons.mp hp with e | e
      · subst e
        exact (hB _ _ ha).trans (each_mono (fun p hp => hf p (by simp [hp])) h)
      · exact ih (fun p hp => hf p (by simp [hp])) e h
    · cases h
    · cases h

theorem tab_one {x : ℕ} {c : List ℕ} {q : ℝ} (h : Tab [x] c q) : q = (c.map lf).sum := by
  obtain ⟨n, m, T, h1, h2, rfl⟩ := h
  have hn : n = 1 := by have := h1.length_eq; simpa using this
  subst hn
  rw [← (h2.map lf).sum_eq, sum_ofFn_map]
  unfold cellSum colTot
  simp

theorem tab_len_one {r c : List ℕ} {q : ℝ} (hr : r.length = 1) (h : Tab r c q) : q = (c.map lf).sum := by
  obtain ⟨x, rfl⟩ := List.length_eq_one_iff.mp hr
  exact tab_one h

/-- What the search from totals `r` and `c` achieves. -/
def Reaches (rec : List ℕ → List ℕ → ℝ → ℝ → R4) (r c : List ℕ) : Prop := ∀ y amx a, rec r c y amx = .run a →
  amx ≤ a ∧ (r.Pairwise (· ≥ ·) → c.Pairwise (· ≥ ·) → 2 ≤ r.length → 2 ≤ c.length → ∀ q, Tab r c q → y + q ≤ a)

theorem descend_spec {fact : Fact} (hf : FactOK fact) {dspt : ℝ} {rec : List ℕ → List ℕ → ℝ → ℝ → R4} (hrec : ∀ r c, Reaches rec r c)
    {p : List ℕ × List ℕ} {y amx a : ℝ} (h : descend fact dspt rec p y amx = .run a) :
    amx ≤ a ∧ (p.1.Pairwise (· ≥ ·) → p.2.Pairwise (· ≥ ·) → 1 ≤ p.1.length → 1 ≤ p.2.length → ∀ q, Tab p.1 p.2 q → y + q ≤ a) := by
  unfold descend at h
  split at h
  · rename_i e
    have := endPath_run hf h
    exact ⟨this.2, fun _ _ _ _ q hq => by rw [tab_len_one e hq]; exact this.1⟩
  · split at h
    · rename_i e
      have := endPath_run hf h
      exact ⟨this.2, fun _ _ _ _ q hq => by rw [tab_len_one e hq.flip]; exact this.1⟩
    · rename_i e1 e2
      obtain ⟨h1, h2⟩ := hrec _ _ _ _ _ h
      exact ⟨h1, fun a b c d q hq => h2 a b (by omega) (by omega) q hq⟩

theorem child_mono {fact : Fact} (hf : FactOK fact) {dspt : ℝ} {rec : List ℕ → List ℕ → ℝ → ℝ → R4} (hrec : ∀ r c, Reaches rec r c)
    {r c : List ℕ} {y amx a : ℝ} {p : ℕ × ℕ} (h : child fact dspt rec r c y p amx = .run a) : amx ≤ a := by
  unfold child at h
  split at h
  · cases h
  · exact (descend_spec hf hrec h).1

theorem dfs_spec {fact : Fact} (hf : FactOK fact) (dspt : ℝ) (n : ℕ) (r c : List ℕ) : Reaches (dfs fact dspt n) r c := by
  induction n generalizing r c with
  | zero => intro y amx a h; cases h
  | succ n ih =>
    intro y amx a h
    unfold dfs at h
    have hm : ∀ p ∈ cells r c, ∀ a b, child fact dspt (dfs fact dspt n) r c y p a = .run b → a ≤ b :=
      fun p _ a b hab => child_mono hf ih hab
    refine ⟨each_mono hm h, ?_⟩
    intro hr hc hr1 hc1 q hq
    obtain ⟨p, hp, q', h1, h2⟩ := cells_spec hr hc hr1 hc1 hq
    obtain ⟨hp1, hp2⟩ := cells_lt hr1 hc1 hp
    refine each_reach hm hp (B := y + q) ?_ h
    intro a b hab
    unfold child at hab
    split at hab
    · cases hab
    · rename_i f hfm
      have hs := next_sorted hp1 hp2 hr hc
      have hl := next_length hp1 hp2
      have := (descend_spec hf ih hab).2 hs.1 hs.2 (by omega) (by omega) q' (next_tab hp1 hp2 h1)
      rw [hf _ _ hfm] at this
      linarith

end Apop.Fisher.F3
