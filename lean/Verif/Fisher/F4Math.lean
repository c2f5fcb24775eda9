import Verif.Fisher.F3Thms

/-! # Least probable tables

Mathematics used for f4xact (apop_fexact.c); nothing here models code. -/

namespace Apop.Fisher.F3
open Apop Apop.Fisher Finset

theorem lf_zero : lf 0 = 0 := by simp [lf]

theorem lf_incr {s q : ℕ} (h : q ≤ s) (d : ℕ) : lf (q + d) - lf q ≤ lf (s + d) - lf s := by
  induction d with
  | zero => simp
  | succ d ih =>
    rw [← Nat.add_assoc, ← Nat.add_assoc, lf_succ, lf_succ]
    have : Real.log ((q + d + 1 : ℕ) : ℝ) ≤ Real.log ((s + d + 1 : ℕ) : ℝ) :=
      Real.log_le_log (by positivity) (by exact_mod_cast (by omega : q + d + 1 ≤ s + d + 1))
    linarith

/-- The more unequal pair has the larger sum. -/
theorem lf_maj {p q s t : ℕ} (h : p + q = s + t) (h1 : s ≤ p) (h2 : t ≤ p) : lf s + lf t ≤ lf p + lf q := by
  obtain ⟨d, rfl⟩ := Nat.exists_eq_add_of_le h1
  have : t = q + d := by omega
  subst this
  have := lf_incr (s := s) (q := q) (by omega) d
  linarith

theorem lf_super (a b : ℕ) : lf a + lf b ≤ lf (a + b) := by
  have := lf_maj (p := a + b) (q := 0) (s := a) (t := b) (by omega) (by omega) (by omega)
  rw [lf_zero] at this; linarith

/-- What is gained by putting two cells together. -/
noncomputable def gain (u v : ℕ) : ℝ := lf (u + v) - lf u - lf v

theorem gain_mono {u u' v v' : ℕ} (h1 : u ≤ u') (h2 : v ≤ v') : gain u v ≤ gain u' v' := by
  unfold gain
  have a := lf_maj (p := u' + v) (q := u) (s := u + v) (t := u') (by omega) (by omega) (by omega)
  have b := lf_maj (p := u' + v') (q := v) (s := u' + v) (t := v') (by omega) (by omega) (by omega)
  linarith

theorem gain_nonneg (u v : ℕ) : 0 ≤ gain u v := by
  have := lf_super u v
  unfold gain; linarith

/-- Taking `s` units from the cells `b k`, `k ∈ S`, such that at most one of the cells
is emptied only in part. -/
theorem greedy {ι : Type} [DecidableEq ι] {S : Finset ι} (b : ι → ℕ) (hS : S.Nonempty) {s : ℕ} (h : s ≤ ∑ k ∈ S, b k) :
    ∃ e : ι → ℕ, (∀ k, e k ≤ b k) ∧ (∀ k ∉ S, e k = 0) ∧ ∑ k ∈ S, e k = s
      ∧ ∃ k ∈ S, e k ≤ s ∧ ∑ k ∈ S, (lf (b k - e k) + lf (e k) - lf (b k)) = -gain (e k) (b k - e k) := by
  induction hS using Finset.Nonempty.cons_induction generalizing s with
  | singleton a =>
    rw [sum_singleton] at h
    refine ⟨fun k => if k = a then s else 0, ?_, ?_, ?_, a, by simp, by simp, ?_⟩
    · intro k; dsimp only; split
      · rename_i e; rw [e]; exact h
      · exact Nat.zero_le _
    · intro k hk; simp at hk; simp [hk]
    · simp
    · simp only [sum_singleton, if_true, gain]
      rw [show s + (b a - s) = b a by omega]; ring
  | cons a S ha hne ih =>
    rw [sum_cons] at h
    by_cases hs : s ≤ b a
    · refine ⟨fun k => if k = a then s else 0, ?_, ?_, ?_, a, by simp, by simp, ?_⟩
      · intro k; dsimp only; split
        · rename_i e; rw [e]; exact hs
        · exact Nat.zero_le _
      · intro k hk; simp only [mem_cons, not_or] at hk; simp [hk.1]
      · rw [sum_cons, if_pos rfl, sum_eq_zero (fun k hk => if_neg (by rintro rfl; exact ha hk))]
        rfl
      · rw [sum_cons, sum_eq_zero (s := S)]
        · simp only [if_true, gain]
          rw [show s + (b a - s) = b a by omega]; ring
        · intro k hk
          have : k ≠ a := by rintro rfl; exact ha hk
          simp [this, lf_zero]
    · obtain ⟨e, h1, h2, h3, k, hk, h4, h5⟩ := ih (s := s - b a) (by omega)
      have hka : k ≠ a := by rintro rfl; exact ha hk
      have hS : ∀ x ∈ S, x ≠ a := by rintro x hx rfl; exact ha hx
      refine ⟨fun k => if k = a then b a else e k, ?_, ?_, ?_, k, by simp [hk], ?_, ?_⟩
      · intro k; dsimp only; split
        · rename_i e; rw [e]
        · exact h1 k
      · intro k hk; simp only [mem_cons, not_or] at hk; simp [hk.1, h2 k hk.2]
      · rw [sum_cons, if_pos rfl, sum_congr rfl (fun k hk => if_neg (hS k hk)), h3]; omega
      · simp only [if_neg hka]; omega
      · rw [sum_cons]
        simp only [if_true, if_neg hka, Nat.sub_self, lf_zero]
        rw [← h5, sum_congr rfl (fun k hk => by rw [if_neg (hS k hk)])]
        ring

/-- Units from column `o` to column `j` in the other rows, and back in row `i`. -/
def pour {r c : ℕ} (T : Table r c) (i : Fin r) (o j : Fin c) (e : Fin r → ℕ) : Table r c := fun k l =>
  if k = i then (if l = o then T k o + ∑ k, e k else if l = j then T k j - ∑ k, e k else T k l)
  else (if l = o then T k o - e k else if l = j then T k j + e k else T k l)

/-- When it is possible. -/
structure CanPour {r c : ℕ} (T : Table r c) (i : Fin r) (o j : Fin c) (e : Fin r → ℕ) : Prop where
  ne : o ≠ j
  zero : e i = 0
  le : ∀ k, e k ≤ T k o
  tot : ∑ k, e k ≤ T i j

theorem pour_rowTot {r c : ℕ} {T : Table r c} {i : Fin r} {o j : Fin c} {e : Fin r → ℕ} (h : CanPour T i o j e) :
    rowTot (pour T i o j e) = rowTot T := by
  funext k
  unfold rowTot
  rw [sum_two _ h.ne, sum_two (f := fun b => T k b) h.ne]
  have hr : ∀ l ∈ (univ.erase o).erase j, pour T i o j e k l = T k l := by
    intro l hl
    simp only [mem_erase, mem_univ, and_true] at hl
    simp [pour, hl.1, hl.2]
  have e3 : ∑ b ∈ (univ.erase o).erase j, pour T i o j e k b = ((univ.erase o).erase j).sum (T k) := sum_congr rfl hr
  rw [e3]
  show _ = T k o + T k j + ((univ.erase o).erase j).sum (T k)
  have e1 : pour T i o j e k o = if k = i then T k o + ∑ k, e k else T k o - e k := by simp [pour]
  have e2 : pour T i o j e k j = if k = i then T k j - ∑ k, e k else T k j + e k := by simp [pour, h.ne.symm]
  rw [e1, e2]
  have := h.le k
  by_cases hk : k = i
  · subst hk
    have := h.tot
    rw [if_pos rfl, if_pos rfl]; omega
  · rw [if_neg hk, if_neg hk]; omega

theorem pour_colTot {r c : ℕ} {T : Table r c} {i : Fin r} {o j : Fin c} {e : Fin r → ℕ} (h : CanPour T i o j e) :
    colTot (pour T i o j e) = colTot T := by
  funext l
  unfold colTot
  have hsum : ∑ k, e k = ∑ k ∈ univ.erase i, e k := by
    rw [← add_sum_erase univ e (mem_univ i), h.zero, Nat.zero_add]
  rw [← add_sum_erase univ _ (mem_univ i), ← add_sum_erase univ (fun k => T k l) (mem_univ i)]
  have hne : ∀ k ∈ univ.erase i, k ≠ i := fun k hk => (mem_erase.mp hk).1
  by_cases h1 : l = o
  · subst h1
    have e1 : pour T i l j e i l = T i l + ∑ k, e k := by simp [pour]
    have e2 : ∑ k ∈ univ.erase i, pour T i l j e k l + ∑ k ∈ univ.erase i, e k = ∑ k ∈ univ.erase i, T k l := by
      rw [← sum_add_distrib]
      refine sum_congr rfl (fun k hk => ?_)
      have := h.le k
      have : pour T i l j e k l = T k l - e k := by simp [pour, hne k hk]
      omega
    rw [e1]; omega
  · by_cases h2 : l = j
    · subst h2
      have e1 : pour T i o l e i l = T i l - ∑ k, e k := by simp [pour, h1]
      have e2 : ∑ k ∈ univ.erase i, pour T i o l e k l = ∑ k ∈ univ.erase i, T k l + ∑ k ∈ univ.erase i, e k := by
        rw [← sum_add_distrib]
        refine sum_congr rfl (fun k hk => ?_)
        simp [pour, hne k hk, h1]
      have := h.tot
      rw [e1]; omega
    · have : ∀ k, pour T i o j e k l = T k l := by intro k; simp [pour, h1, h2]
      simp [this]

theorem pour_cell {r c : ℕ} (T : Table r c) (i : Fin r) (o j : Fin c) (e : Fin r → ℕ) :
    pour T i o j e i o = T i o + ∑ k, e k := by simp [pour]

/-- What it gains. -/
theorem pour_cellSum {r c : ℕ} {T : Table r c} {i : Fin r} {o j : Fin c} {e : Fin r → ℕ} (h : CanPour T i o j e) :
    cellSum T + (lf (T i o + ∑ k, e k) - lf (T i o)) + (lf (T i j - ∑ k, e k) - lf (T i j))
      + ∑ k ∈ univ.erase i, (lf (T k o - e k) + lf (e k) - lf (T k o)) ≤ cellSum (pour T i o j e) := by
  have hrow : ∀ k, ∑ l, lf (pour T i o j e k l) - ∑ l, lf (T k l)
      = (lf (pour T i o j e k o) - lf (T k o)) + (lf (pour T i o j e k j) - lf (T k j)) := by
    intro k
    rw [sum_two (f := fun l => lf (pour T i o j e k l)) h.ne, sum_two (f := fun l => lf (T k l)) h.ne,
      sum_congr rfl (fun l hl => by
        simp only [mem_erase, mem_univ, and_true] at hl
        rw [show pour T i o j e k l = T k l by simp [pour, hl.1, hl.2]])]
    ring
  have hdiff : cellSum (pour T i o j e) - cellSum T
      = ∑ k, ((lf (pour T i o j e k o) - lf (T k o)) + (lf (pour T i o j e k j) - lf (T k j))) := by
    unfold cellSum
    rw [← sum_sub_distrib]
    exact sum_congr rfl (fun k _ => hrow k)
  rw [← add_sum_erase univ _ (mem_univ i)] at hdiff
  have e1 : pour T i o j e i o = T i o + ∑ k, e k := by simp [pour]
  have e2 : pour T i o j e i j = T i j - ∑ k, e k := by simp [pour, h.ne.symm]
  rw [e1, e2] at hdiff
  have hge : ∑ k ∈ univ.erase i, (lf (T k o - e k) + lf (e k) - lf (T k o))
      ≤ ∑ k ∈ univ.erase i, ((lf (pour T i o j e k o) - lf (T k o)) + (lf (pour T i o j e k j) - lf (T k j))) := by
    refine sum_le_sum (fun k hk => ?_)
    have hki : k ≠ i := (mem_erase.mp hk).1
    have e3 : pour T i o j e k o = T k o - e k := by simp [pour, hki]
    have e4 : pour T i o j e k j = T k j + e k := by simp [pour, h.ne.symm, hki]
    rw [e3, e4]
    have := lf_super (T k j) (e k)
    linarith
  linarith

end Apop.Fisher.F3
