import Verif.Fisher.F3Math

/-! # The rows f3xact tries

The first row of a table that no exchange improves is among the rows that f3xact
tries (apop_fexact.c:908-951). -/

namespace Apop.Fisher.F3
open Apop Apop.Fisher Finset

theorem truncQ_le {q : ℚ} {x : ℕ} (h : q < (x : ℚ) + 1) : truncQ q ≤ x := by
  unfold truncQ
  by_cases h0 : 0 ≤ q
  · rw [if_pos h0]
    have : ⌊q⌋ < (x : ℤ) + 1 := Int.floor_lt.mpr (by push_cast; exact h)
    omega
  · rw [if_neg h0]
    have : ⌈q⌉ ≤ 0 := Int.ceil_le.mpr (by push_cast; linarith)
    omega

theorem le_truncQ {q : ℚ} {x : ℤ} (h0 : 0 ≤ x) (h : (x : ℚ) ≤ q) : x ≤ truncQ q := by
  unfold truncQ
  have : (0 : ℚ) ≤ q := le_trans (by exact_mod_cast h0) h
  rw [if_pos this]
  exact Int.le_floor.mpr h

theorem gather_mem {α : Type _} {rs : List (Res (List α))} : ∀ {ls : List α}, gather rs = .ok ls →
    ∀ r ∈ rs, ∃ a, r = .ok a ∧ ∀ x ∈ a, x ∈ ls := by
  induction rs with
  | nil => intro ls _ r hr; cases hr
  | cons r0 rs ih =>
    intro ls h r hr
    cases r0 with
    | ub => simp [gather] at h
    | ok a =>
      cases hg : gather rs with
      | ub => simp [gather, hg] at h
      | ok b =>
        simp only [gather, hg, Res.ok.injEq] at h
        subst h
        rcases List.mem_cons.mp hr with rfl | hr
        · exact ⟨a, rfl, fun x hx => List.mem_append_left _ hx⟩
        · obtain ⟨a', e, h'⟩ := ih hg r hr
          exact ⟨a', e, fun x hx => List.mem_append_right _ (h' x hx)⟩

theorem tolQ_pos : 0 < tolQ := by unfold tolQ; norm_num

/-- The two bounds of the code for a cell of a table that no exchange improves. -/
theorem code_bounds {m : ℕ} {p : Col1 m} {cs : List (Col1 m)} (h : ∀ q ∈ cs, Fair p q) (hcs : cs ≠ []) :
    loOf m cs.length (p.1 + (cs.map Prod.fst).sum : ℕ) p.tot (p.tot + (cs.map Col1.tot).sum : ℕ) ≤ p.1
    ∧ (p.1 : ℚ) ≤ hiOf m cs.length (p.1 + (cs.map Prod.fst).sum : ℕ) p.tot (p.tot + (cs.map Col1.tot).sum : ℕ) := by
  obtain ⟨h1, h2⟩ := cell_bounds h
  have hl : 0 < cs.length := List.length_pos_iff.mpr hcs
  constructor
  · unfold loOf
    refine truncQ_le ?_
    have hd : (0 : ℚ) < (((p.tot + (cs.map Col1.tot).sum : ℕ) + m * cs.length + 1 : ℤ) : ℚ) := by positivity
    have : ((((p.1 + (cs.map Prod.fst).sum : ℕ) + 1) * (p.tot + 1) : ℤ) : ℚ)
        / (((p.tot + (cs.map Col1.tot).sum : ℕ) + m * cs.length + 1 : ℤ) : ℚ) ≤ (p.1 : ℚ) + 1 := by
      rw [div_le_iff₀ hd]
      exact_mod_cast h2
    have := tolQ_pos
    linarith
  · unfold hiOf
    have hd : (0 : ℚ) < (((p.tot + (cs.map Col1.tot).sum : ℕ) + m + cs.length : ℤ) : ℚ) := by
      have : (0 : ℤ) < ((p.tot + (cs.map Col1.tot).sum : ℕ) + m + cs.length : ℤ) := by omega
      exact_mod_cast this
    rw [le_div_iff₀ hd]
    exact_mod_cast h1

theorem count_spec {first : Bool} {nr1 nc1 nrt nct nn1 : ℤ} {n x : ℕ} (h : count first nr1 nc1 nrt nct nn1 = .ok n)
    (h1 : loOf nr1 nc1 nrt nct nn1 ≤ x) (h2 : (x : ℚ) ≤ hiOf nr1 nc1 nrt nct nn1) :
    ∃ i < n, loOf nr1 nc1 nrt nct nn1 + (i : ℤ) = x := by
  refine ⟨(x - loOf nr1 nc1 nrt nct nn1).toNat, ?_, by omega⟩
  cases first with
  | true =>
    simp only [count, if_true, countFirst] at h
    split at h
    · cases h
    · split at h
      · cases h
      · simp only [Res.ok.injEq] at h
        have := le_truncQ (x := (x : ℤ)) (by omega) (by exact_mod_cast h2)
        omega
  | false =>
    simp only [count, Bool.false_eq_true, if_false, countLater] at h
    split at h
    · cases h
    · split at h
      · cases h
      · simp only [Res.ok.injEq] at h
        have : (x - loOf nr1 nc1 nrt nct nn1 + 1) ≤ truncQ (hiOf nr1 nc1 nrt nct nn1 - loOf nr1 nc1 nrt nct nn1 + 1) :=
          le_truncQ (by omega) (by push_cast; linarith)
        omega

/-- The columns' totals as ints. -/
def totZ {m : ℕ} (cs : List (Col1 m)) : List ℤ := cs.map (fun p => (p.tot : ℤ))
/-- The cells of the first row as ints. -/
def topZ {m : ℕ} (cs : List (Col1 m)) : List ℤ := cs.map (fun p => (p.1 : ℤ))

/-- The first row of a table that no exchange improves is tried. -/
theorem mem_candidates {m : ℕ} {cs : List (Col1 m)} : ∀ {first : Bool} {lbs : List (List ℤ)}, cs ≠ [] → cs.Pairwise Fair →
    candidates m first ((cs.map Prod.fst).sum : ℕ) ((cs.map Col1.tot).sum : ℕ) (totZ cs) = .ok lbs → topZ cs ∈ lbs := by
  induction cs with
  | nil => intro _ _ h; exact absurd rfl h
  | cons p cs ih =>
    intro first lbs _ hp h
    rw [List.pairwise_cons] at hp
    cases cs with
    | nil =>
      simp only [totZ, List.map_cons, List.map_nil, candidates, Res.ok.injEq] at h
      rw [← h]
      simp [topZ]
    | cons q cs =>
      obtain ⟨b1, b2⟩ := code_bounds hp.1 (by simp)
      have hlen : ((q :: cs).length : ℤ) = ((totZ (q :: cs)).length : ℤ) := by simp [totZ]
      rw [hlen] at b1 b2
      rw [List.map_cons (f := Prod.fst), List.map_cons (f := Col1.tot), List.sum_cons, List.sum_cons] at h
      have e1 : totZ (p :: q :: cs) = (p.tot : ℤ) :: (q.tot : ℤ) :: totZ cs := rfl
      have e2 : totZ (q :: cs) = (q.tot : ℤ) :: totZ cs := rfl
      rw [e1, candidates, ← e2] at h
      generalize hN : ((p.1 + ((q :: cs).map Prod.fst).sum : ℕ) : ℤ) = nrt at *
      generalize hM : ((p.tot + ((q :: cs).map Col1.tot).sum : ℕ) : ℤ) = nn1 at *
      cases hc : count first m (totZ (q :: cs)).length nrt p.tot nn1 with
      | ub => rw [hc] at h; cases h
      | ok n =>
        rw [hc] at h
        obtain ⟨i, hi, hx⟩ := count_spec hc b1 b2
        obtain ⟨a, ha, hsub⟩ := gather_mem h _ (List.mem_map.mpr ⟨i, List.mem_range.mpr hi, rfl⟩)
        rw [hx] at ha
        have r1 : nrt - p.1 = (((q :: cs).map Prod.fst).sum : ℕ) := by rw [← hN]; push_cast; ring
        have r2 : nn1 - p.tot = (((q :: cs).map Col1.tot).sum : ℕ) := by rw [← hM]; push_cast; ring
        rw [r1, r2] at ha
        cases hcand : candidates m false (((q :: cs).map Prod.fst).sum : ℕ) (((q :: cs).map Col1.tot).sum : ℕ) (totZ (q :: cs)) with
        | ub => rw [hcand] at ha; cases ha
        | ok ls =>
          rw [hcand] at ha
          simp only [front, Res.ok.injEq] at ha
          have := ih (by simp) hp.2 hcand
          refine hsub _ ?_
          rw [← ha]
          exact List.mem_map.mpr ⟨_, this, rfl⟩

end Apop.Fisher.F3
