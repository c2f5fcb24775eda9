import Verif.Fisher.F3Enum
import Mathlib.Data.Fin.Tuple.Sort

/-! # f3xact's bound is valid -/

namespace Apop.Fisher.F3
open Apop Apop.Fisher Finset

/-- Where `fact` is read within the array, it holds the log of the factorial. Nothing
is said about reads before the array. -/
def FactOK (fact : Fact) : Prop := ∀ (n : ℕ) v, fact n = .ok v → v = lf n

theorem sumFact_spec {fact : Fact} (hf : FactOK fact) {l : List ℕ} : ∀ {s : ℝ}, sumFact fact (l.map (fun x : ℕ => (x : ℤ))) = .ok s →
    s = (l.map lf).sum := by
  induction l with
  | nil => intro s h; simp only [List.map_nil, sumFact, Res.ok.injEq] at h; simp [← h]
  | cons a l ih =>
    intro s h
    simp only [List.map_cons, sumFact] at h
    cases ha : fact a with
    | ub => simp [ha] at h
    | ok x =>
      cases hb : sumFact fact (l.map (fun x : ℕ => (x : ℤ))) with
      | ub => simp [hb] at h
      | ok y =>
        simp only [ha, hb, Res.ok.injEq] at h
        rw [← h, hf a x ha, ih hb]; simp

/-! ## Tables -/

/-- Without the first row. -/
def tailT {r c : ℕ} (T : Table (r + 1) c) : Table r c := fun i j => T i.succ j
/-- With the columns in another order. -/
def perm {r c : ℕ} (σ : Equiv.Perm (Fin c)) (T : Table r c) : Table r c := fun i j => T i (σ j)
/-- Rows and columns exchanged. -/
def flip' {r c : ℕ} (T : Table r c) : Table c r := fun j i => T i j

theorem Exch.tail {r c : ℕ} {T : Table (r + 1) c} (h : Exch T) : Exch (tailT T) := fun i k j l h1 h2 =>
  h i.succ k.succ j l (fun e => h1 (Fin.succ_injective _ e)) h2

theorem Exch.perm {r c : ℕ} {T : Table r c} (h : Exch T) (σ : Equiv.Perm (Fin c)) : Exch (perm σ T) := fun i k j l h1 h2 =>
  h i k (σ j) (σ l) h1 (fun e => h2 (σ.injective e))

theorem Exch.flip {r c : ℕ} {T : Table r c} (h : Exch T) : Exch (flip' T) := fun i k j l h1 h2 => by
  have := h j l i k h2 h1
  unfold flip'
  rw [mul_comm (T l i + 1)]
  exact this

theorem cellSum_succ {r c : ℕ} (T : Table (r + 1) c) : cellSum T = ∑ j, lf (T 0 j) + cellSum (tailT T) := by
  unfold cellSum; rw [Fin.sum_univ_succ]; rfl

theorem cellSum_perm {r c : ℕ} (σ : Equiv.Perm (Fin c)) (T : Table r c) : cellSum (perm σ T) = cellSum T := by
  unfold cellSum perm
  exact sum_congr rfl (fun i _ => Equiv.sum_comp σ (fun j => lf (T i j)))

theorem cellSum_flip {r c : ℕ} (T : Table r c) : cellSum (flip' T) = cellSum T := by
  unfold cellSum flip'; exact sum_comm

theorem rowTot_perm {r c : ℕ} (σ : Equiv.Perm (Fin c)) (T : Table r c) : rowTot (perm σ T) = rowTot T := by
  funext i; unfold rowTot perm; exact Equiv.sum_comp σ (fun j => T i j)

theorem colTot_perm {r c : ℕ} (σ : Equiv.Perm (Fin c)) (T : Table r c) : colTot (perm σ T) = colTot T ∘ σ := by
  funext j; rfl

theorem rowTot_tail {r c : ℕ} (T : Table (r + 1) c) (i : Fin r) : rowTot (tailT T) i = rowTot T i.succ := rfl

theorem colTot_succ {r c : ℕ} (T : Table (r + 1) c) (j : Fin c) : colTot T j = T 0 j + colTot (tailT T) j := by
  unfold colTot; rw [Fin.sum_univ_succ]; rfl

/-- Row totals, as ints. -/
def rowsZ {r c : ℕ} (T : Table r c) : List ℤ := List.ofFn (fun i => (rowTot T i : ℤ))
/-- Column totals, as ints. -/
def colsZ {r c : ℕ} (T : Table r c) : List ℤ := List.ofFn (fun j => (colTot T j : ℤ))

theorem rowsZ_flip {r c : ℕ} (T : Table r c) : rowsZ (flip' T) = colsZ T := rfl
theorem colsZ_flip {r c : ℕ} (T : Table r c) : colsZ (flip' T) = rowsZ T := rfl
theorem rowsZ_length {r c : ℕ} (T : Table r c) : (rowsZ T).length = r := by simp [rowsZ]
theorem colsZ_length {r c : ℕ} (T : Table r c) : (colsZ T).length = c := by simp [colsZ]
theorem rowsZ_succ {r c : ℕ} (T : Table (r + 1) c) : rowsZ T = (rowTot T 0 : ℤ) :: rowsZ (tailT T) := by
  unfold rowsZ; rw [List.ofFn_succ]; rfl
theorem rowsZ_perm {r c : ℕ} (σ : Equiv.Perm (Fin c)) (T : Table r c) : rowsZ (perm σ T) = rowsZ T := by
  unfold rowsZ; rw [rowTot_perm]

/-- The columns, with the cell of the first row apart. -/
def colsOf {r c : ℕ} (T : Table (r + 1) c) : List (Col1 r) := List.ofFn (fun j => (T 0 j, fun k => T k.succ j))

theorem colsOf_fair {r c : ℕ} {T : Table (r + 1) c} (h : Exch T) : (colsOf T).Pairwise Fair := by
  unfold colsOf
  rw [List.pairwise_ofFn]
  intro i j hij k
  refine ⟨?_, ?_⟩
  · exact h 0 k.succ i j (Fin.succ_ne_zero k).symm hij.ne
  · exact h 0 k.succ j i (Fin.succ_ne_zero k).symm hij.ne'

theorem colsOf_fst {r c : ℕ} (T : Table (r + 1) c) : ((colsOf T).map Prod.fst).sum = rowTot T 0 := by
  unfold colsOf rowTot
  rw [List.map_ofFn, List.sum_ofFn]; rfl

theorem tot_ofFn {r c : ℕ} (T : Table (r + 1) c) (j : Fin c) : Col1.tot (T 0 j, fun k : Fin r => T k.succ j) = colTot T j := by
  unfold Col1.tot colTot; rw [Fin.sum_univ_succ]

theorem colsOf_tot {r c : ℕ} (T : Table (r + 1) c) : ((colsOf T).map Col1.tot).sum = ∑ i, rowTot T i := by
  rw [sum_margins]
  unfold colsOf
  rw [List.map_ofFn, List.sum_ofFn]
  exact sum_congr rfl (fun j _ => tot_ofFn T j)

theorem colsOf_totZ {r c : ℕ} (T : Table (r + 1) c) : totZ (colsOf T) = colsZ T := by
  unfold totZ colsOf colsZ
  rw [List.map_ofFn]
  congr 1; funext j
  exact congrArg _ (tot_ofFn T j)

theorem colsOf_topZ {r c : ℕ} (T : Table (r + 1) c) : topZ (colsOf T) = List.ofFn (fun j => (T 0 j : ℤ)) := by
  unfold topZ colsOf
  rw [List.map_ofFn]; rfl

theorem rowsZ_sum {r c : ℕ} (T : Table r c) : (rowsZ T).sum = ((∑ i, rowTot T i : ℕ) : ℤ) := by
  unfold rowsZ; rw [List.sum_ofFn]; push_cast; rfl

theorem zip_left {r c : ℕ} (T : Table (r + 1) c) :
    List.zipWith (· - ·) (colsZ T) (List.ofFn (fun j => (T 0 j : ℤ))) = colsZ (tailT T) := by
  refine List.ext_getElem (by simp [colsZ]) (fun i h1 h2 => ?_)
  simp [colsZ, colTot_succ]

theorem sortZ_ofFn {c : ℕ} (f : Fin c → ℤ) : ∃ σ : Equiv.Perm (Fin c), sortZ (List.ofFn f) = List.ofFn (f ∘ σ) := by
  refine ⟨Tuple.sort f, ?_⟩
  unfold sortZ
  have h1 : (List.ofFn (f ∘ Tuple.sort f)).Pairwise (· ≤ ·) := by
    rw [List.pairwise_ofFn]
    intro i j hij
    exact Tuple.monotone_sort f hij.le
  exact List.Perm.eq_of_pairwise' (List.pairwise_insertionSort _ _) h1
    ((List.perm_insertionSort _ _).trans ((Tuple.sort f).ofFn_comp_perm f).symm)

/-! ## f10act -/

/-- The graph of the log of the factorial is above its tangents. -/
theorem lf_tangent (q x : ℕ) : lf q + ((x : ℝ) - q) * (lf (q + 1) - lf q) ≤ lf x := by
  have hs : lf (q + 1) - lf q = Real.log (q + 1 : ℕ) := by rw [lf_succ]; ring
  rw [hs]
  rcases Nat.le_total q x with h | h
  · obtain ⟨t, rfl⟩ := Nat.exists_eq_add_of_le h
    clear h
    induction t with
    | zero => simp
    | succ t ih =>
      rw [show q + (t + 1) = (q + t) + 1 by omega, lf_succ]
      have : Real.log (q + 1 : ℕ) ≤ Real.log (q + t + 1 : ℕ) :=
        Real.log_le_log (by positivity) (by exact_mod_cast (by omega : q + 1 ≤ q + t + 1))
      push_cast at ih this ⊢
      nlinarith
  · obtain ⟨t, ht⟩ := Nat.exists_eq_add_of_le h
    clear h
    induction t generalizing x with
    | zero => rw [ht]; simp
    | succ t ih =>
      have h1 := ih (x + 1) (by omega)
      rw [lf_succ] at h1
      have : Real.log (x + 1 : ℕ) ≤ Real.log (q + 1 : ℕ) :=
        Real.log_le_log (by positivity) (by exact_mod_cast (by omega : x + 1 ≤ q + 1))
      push_cast at h1 this ⊢
      linarith

theorem even_least {r : ℕ} (f : Fin r → ℕ) (q m : ℕ) (h : ∑ i, f i = r * q + m) :
    (m : ℝ) * lf (q + 1) + ((r : ℝ) - m) * lf q ≤ ∑ i, lf (f i) := by
  have h1 : ∑ i, (lf q + ((f i : ℝ) - q) * (lf (q + 1) - lf q)) ≤ ∑ i, lf (f i) := sum_le_sum (fun i _ => lf_tangent q (f i))
  rw [sum_add_distrib, ← sum_mul, sum_sub_distrib] at h1
  simp only [sum_const, card_univ, Fintype.card_fin, nsmul_eq_mul] at h1
  have h2 : ((∑ i, (f i : ℝ))) = r * q + m := by exact_mod_cast h
  rw [h2] at h1
  linarith

theorem f10val_spec {fact : Fact} (hf : FactOK fact) (r : ℕ) : ∀ {c : ℕ} {T : Table r c} {s : ℝ},
    f10val fact r (colsZ T) = .ok s → s ≤ ∑ j, ∑ i, lf (T i j) := by
  intro c
  induction c with
  | zero => intro T s h; simp only [colsZ, List.ofFn_zero, f10val, Res.ok.injEq] at h; simp [← h]
  | succ c ih =>
    intro T s h
    have e : colsZ T = (colTot T 0 : ℤ) :: colsZ (fun i (j : Fin c) => T i j.succ) := by
      unfold colsZ; rw [List.ofFn_succ]; rfl
    rw [e] at h
    simp only [f10val] at h
    have e1 : (colTot T 0 : ℤ) / r = ((colTot T 0 / r : ℕ) : ℤ) := by norm_cast
    have e2 : (colTot T 0 : ℤ) % r = ((colTot T 0 % r : ℕ) : ℤ) := by norm_cast
    rw [e1, e2] at h
    cases h1 : fact (((colTot T 0 / r : ℕ) : ℤ) + 1) with
    | ub => simp only [h1, reduceCtorEq] at h
    | ok a =>
      cases h2 : fact ((colTot T 0 / r : ℕ) : ℤ) with
      | ub => simp only [h1, h2, reduceCtorEq] at h
      | ok b =>
        cases h3 : f10val fact r (colsZ (fun i (j : Fin c) => T i j.succ)) with
        | ub => simp only [h1, h2, h3, reduceCtorEq] at h
        | ok s' =>
          simp only [h1, h2, h3, Res.ok.injEq] at h
          have ha : a = lf (colTot T 0 / r + 1) := hf _ a (by push_cast; push_cast at h1; exact h1)
          have hb : b = lf (colTot T 0 / r) := hf _ b h2
          have := ih h3
          have h4 := even_least (fun i => T i 0) (colTot T 0 / r) (colTot T 0 % r) (Nat.div_add_mod (colTot T 0) r).symm
          rw [Fin.sum_univ_succ, ← h, ha, hb]
          have e3 : (((r : ℤ) - ((colTot T 0 % r : ℕ) : ℤ) : ℤ) : ℝ) = (r : ℝ) - ((colTot T 0 % r : ℕ) : ℝ) := by
            rw [Int.cast_sub, Int.cast_natCast, Int.cast_natCast]
          rw [e3, Int.cast_natCast]
          linarith

theorem f10act_spec {fact : Fact} (hf : FactOK fact) {r c : ℕ} {T : Table r c} {s : ℝ}
    (h : f10act fact (rowsZ T) (colsZ T) = .ok (some s)) : s ≤ cellSum T := by
  unfold f10act at h
  by_cases ht : f10test (rowsZ T) (colsZ T) = true
  · rw [if_pos ht, rowsZ_length] at h
    cases hv : f10val fact r (colsZ T) with
    | ub => simp [hv] at h
    | ok v =>
      simp only [hv, Res.ok.injEq, Option.some.injEq] at h
      subst h
      have := f10val_spec hf r hv
      rw [sum_comm] at this
      exact this
  · rw [if_neg ht] at h; simp at h

theorem optimal_spec {fact : Fact} (hf : FactOK fact) {r c : ℕ} {T : Table r c} {big : ℤ} {s : ℝ}
    (h : optimal fact big (rowsZ T) (colsZ T) = .ok (some s)) : s ≤ cellSum T := by
  unfold optimal at h
  cases h1 : (if big ≤ (rowsZ T).headD 0 + (colsZ T).length then f10act fact (rowsZ T) (colsZ T) else .ok none) with
  | ub => rw [h1] at h; cases h
  | ok o =>
    rw [h1] at h
    cases o with
    | some v =>
      simp only [Res.ok.injEq, Option.some.injEq] at h
      subst h
      by_cases hb : big ≤ (rowsZ T).headD 0 + (colsZ T).length
      · rw [if_pos hb] at h1; exact f10act_spec hf h1
      · rw [if_neg hb] at h1; simp at h1
    | none =>
      simp only [] at h
      by_cases hb : (colsZ T).getLastD 0 ≤ (colsZ T).headD 0 + (rowsZ T).length
      · rw [if_pos hb, ← rowsZ_flip, ← colsZ_flip] at h
        rw [← cellSum_flip]
        exact f10act_spec hf h
      · rw [if_neg hb] at h; simp at h

end Apop.Fisher.F3
