import Verif.Fisher.NetMain
import Mathlib.Data.Fintype.Pi
import Mathlib.Algebra.BigOperators.Fin
import Mathlib.Data.List.OfFn
import Mathlib.Algebra.BigOperators.Ring.Finset

/-! # Fisher's exact test: specification

The probability of a table given its margins, and the p value: the probability of
the tables with the same margins that are no more probable. Nothing here models
code. -/

namespace Apop.Fisher
open Finset

/-- An `r` by `c` table of counts. -/
abbrev Table (r c : ℕ) := Fin r → Fin c → ℕ

/-- Row totals. -/
def rowTot {r c : ℕ} (X : Table r c) (i : Fin r) : ℕ := ∑ j, X i j
/-- Column totals. -/
def colTot {r c : ℕ} (X : Table r c) (j : Fin c) : ℕ := ∑ i, X i j
/-- The total. -/
def total {r c : ℕ} (X : Table r c) : ℕ := ∑ i, ∑ j, X i j

/-- The tables with given row and column totals. -/
def tables {r c : ℕ} (R : Fin r → ℕ) (C : Fin c → ℕ) : Finset (Table r c) :=
  (Fintype.piFinset fun i => Fintype.piFinset fun _ => range (R i + 1)).filter
    (fun Y => rowTot Y = R ∧ colTot Y = C)

theorem mem_tables {r c : ℕ} {R : Fin r → ℕ} {C : Fin c → ℕ} {Y : Table r c} :
    Y ∈ tables R C ↔ rowTot Y = R ∧ colTot Y = C := by
  unfold tables
  rw [mem_filter]
  refine ⟨fun h => h.2, fun h => ⟨?_, h⟩⟩
  simp only [Fintype.mem_piFinset, mem_range, Nat.lt_succ_iff]
  intro i j
  rw [← h.1]
  exact single_le_sum (f := fun j => Y i j) (fun _ _ => Nat.zero_le _) (mem_univ j)

/-- The probability of a table with these margins, when rows and columns are
independent: `∏ row totals! ∏ column totals! / (total! ∏ cells!)`. -/
noncomputable def prob {r c : ℕ} (X : Table r c) : ℝ :=
  ((∏ i, ((rowTot X i).factorial : ℝ)) * ∏ j, ((colTot X j).factorial : ℝ))
    / (((total X).factorial : ℝ) * ∏ i, ∏ j, ((X i j).factorial : ℝ))

open Classical in
/-- The probability of the tables with the same margins, and a probability of at
most `b`. -/
noncomputable def tail {r c : ℕ} (X : Table r c) (b : ℝ) : ℝ :=
  ∑ Y ∈ tables (rowTot X) (colTot X), if prob Y ≤ b then prob Y else 0

open Classical in
/-- The probability of the tables with the same margins, and a probability of less
than `b`. -/
noncomputable def tailBelow {r c : ℕ} (X : Table r c) (b : ℝ) : ℝ :=
  ∑ Y ∈ tables (rowTot X) (colTot X), if prob Y < b then prob Y else 0

/-- The p value of Fisher's exact test. -/
noncomputable def pValue {r c : ℕ} (X : Table r c) : ℝ := tail X (prob X)

/-- The length of the path of a table. -/
noncomputable def path {r c : ℕ} (X : Table r c) : ℝ := ∑ j, (lf (colTot X j) - ∑ i, lf (X i j))

/-- The columns that fit. -/
def colsFin {r : ℕ} (R : Fin r → ℕ) (n : ℕ) : Finset (Fin r → ℕ) :=
  (Fintype.piFinset fun i => range (R i + 1)).filter (fun d => ∑ i, d i = n)

theorem mem_colsFin {r : ℕ} {R : Fin r → ℕ} {n : ℕ} {d : Fin r → ℕ} :
    d ∈ colsFin R n ↔ (∀ i, d i ≤ R i) ∧ ∑ i, d i = n := by
  simp [colsFin, Nat.lt_succ_iff]

theorem sum_ofFn_map {r : ℕ} (f : Fin r → ℕ) (g : ℕ → ℝ) : ((List.ofFn f).map g).sum = ∑ i, g (f i) := by
  rw [List.map_ofFn, List.sum_ofFn]; rfl

theorem col_ofFn {r : ℕ} {R d : Fin r → ℕ} {n : ℕ} : Col (List.ofFn R) n (List.ofFn d) ↔ d ∈ colsFin R n := by
  unfold Col
  rw [mem_colsFin, List.sum_ofFn, List.forall₂_iff_get]
  simp only [List.length_ofFn, List.get_ofFn, true_and]
  constructor
  · rintro ⟨h, h2⟩
    exact ⟨fun i => by simpa using h i.1 i.2 i.2, h2⟩
  · rintro ⟨h, h2⟩
    exact ⟨fun i h1 _ => by simpa using h ⟨i, h1⟩, h2⟩

theorem leave_ofFn {r : ℕ} (R d : Fin r → ℕ) : leave (List.ofFn R) (List.ofFn d) = List.ofFn (fun i => R i - d i) := by
  refine List.ext_get (by simp [leave]) (fun i h1 h2 => ?_)
  simp [leave]

theorem S_fin {r : ℕ} (R : Fin r → ℕ) (n : ℕ) (F : List (ℕ × ℕ) → ℝ) :
    S (List.ofFn R) n F = ∑ d ∈ colsFin R n, F (pairs (List.ofFn R) (List.ofFn d)) := by
  have h := daughters_sum (l := List.ofFn R) (n := n) (ds := (colsFin R n).toList.map List.ofFn)
    (List.Nodup.map (List.ofFn_injective) (Finset.nodup_toList _)) (fun d => ?_) F
  · rw [← h, List.map_map, ← Finset.sum_map_toList]; rfl
  · rw [List.mem_map]
    constructor
    · rintro ⟨d', h1, rfl⟩
      exact col_ofFn.mpr (by simpa using h1)
    · intro h
      have hl : d.length = r := by have := h.1.length_eq; simp at this; omega
      subst hl
      refine ⟨fun i => d.get i, ?_, List.ofFn_get d⟩
      rw [Finset.mem_toList, ← col_ofFn, List.ofFn_get]
      exact h

/-- Sums over tables, column by column. -/
theorem W_fin {r : ℕ} : ∀ {c : ℕ} (R : Fin r → ℕ) (C : Fin c → ℕ) (g : ℝ → ℝ), ∑ i, R i = ∑ j, C j →
    W (List.ofFn R) (List.ofFn C) g = ∑ Y ∈ tables R C, g (path Y) := by
  intro c
  induction c with
  | zero =>
    intro R C g h
    have hR : ∀ i, R i = 0 := by
      intro i
      have h2 : ∑ i, R i = 0 := by rw [h]; simp
      exact (Finset.sum_eq_zero_iff.mp h2) i (mem_univ i)
    have : tables R C = {fun _ j => j.elim0} := by
      ext Y
      rw [mem_tables, mem_singleton]
      constructor
      · intro _; funext i j; exact j.elim0
      · rintro rfl
        exact ⟨by funext i; simp [rowTot, hR], by funext j; exact j.elim0⟩
    rw [this, sum_singleton]
    simp [W, path]
  | succ c ih =>
    intro R C g h
    rw [List.ofFn_succ]
    unfold W
    rw [S_fin]
    have step : ∀ d ∈ colsFin R (C 0), W ((pairs (List.ofFn R) (List.ofFn d)).map Prod.snd) (List.ofFn fun i => C i.succ)
          (fun q => g (lmult (C 0) ((pairs (List.ofFn R) (List.ofFn d)).map Prod.fst) + q))
        = ∑ Y ∈ tables (fun i => R i - d i) (fun j => C j.succ), g (lmult (C 0) (List.ofFn d) + path Y) := by
      intro d hd
      rw [mem_colsFin] at hd
      rw [pairs_snd, pairs_fst (by simp), leave_ofFn, ih]
      have : ∑ i, (R i - d i) + ∑ i, d i = ∑ i, R i := by
        rw [← sum_add_distrib]
        exact sum_congr rfl (fun i _ => Nat.sub_add_cancel (hd.1 i))
      rw [Fin.sum_univ_succ] at h
      omega
    rw [sum_congr rfl step, Finset.sum_sigma']
    refine sum_bij' (fun a _ => fun i => Fin.cons (a.1 i) (a.2 i)) (fun Y _ => ⟨fun i => Y i 0, fun i j => Y i j.succ⟩) ?_ ?_ ?_ ?_ ?_
    · rintro ⟨d, Y⟩ ha
      rw [mem_sigma, mem_colsFin, mem_tables] at ha
      obtain ⟨⟨h1, h2⟩, h3, h4⟩ := ha
      rw [mem_tables]
      refine ⟨?_, ?_⟩
      · funext i
        have := congrFun h3 i
        simp only [rowTot] at this ⊢
        rw [Fin.sum_univ_succ]
        simp only [Fin.cons_zero, Fin.cons_succ]
        rw [this]
        have h5 : d i ≤ R i := h1 i
        show d i + (R i - d i) = R i
        omega
      · funext j
        refine Fin.cases ?_ (fun j => ?_) j
        · simp only [colTot, Fin.cons_zero]; exact h2
        · have := congrFun h4 j
          simp only [colTot, Fin.cons_succ] at this ⊢; exact this
    · intro Y hY
      rw [mem_tables] at hY
      obtain ⟨h3, h4⟩ := hY
      rw [mem_sigma, mem_colsFin, mem_tables]
      refine ⟨⟨fun i => ?_, ?_⟩, ?_, ?_⟩
      · rw [← h3]
        exact single_le_sum (f := fun j => Y i j) (fun _ _ => Nat.zero_le _) (mem_univ 0)
      · rw [← h4]; rfl
      · funext i
        have := congrFun h3 i
        simp only [rowTot] at this ⊢
        rw [Fin.sum_univ_succ] at this
        omega
      · funext j
        rw [← h4]; rfl
    · rintro ⟨d, Y⟩ _
      simp
    · intro Y _
      funext i
      exact Fin.cons_self_tail (Y i)
    · rintro ⟨d, Y⟩ ha
      rw [mem_sigma, mem_colsFin, mem_tables] at ha
      congr 1
      unfold path
      rw [Fin.sum_univ_succ]
      congr 1
      · unfold lmult colTot
        rw [sum_ofFn_map]
        simp only [Fin.cons_zero]
        rw [ha.1.2]

/-- All the probabilities are positive. -/
theorem prob_pos {r c : ℕ} (X : Table r c) : 0 < prob X := by
  unfold prob
  refine div_pos (mul_pos ?_ ?_) (mul_pos ?_ ?_)
  · exact prod_pos (fun i _ => by exact_mod_cast Nat.factorial_pos _)
  · exact prod_pos (fun i _ => by exact_mod_cast Nat.factorial_pos _)
  · exact_mod_cast Nat.factorial_pos _
  · exact prod_pos (fun i _ => prod_pos (fun j _ => by exact_mod_cast Nat.factorial_pos _))

/-- The probability in terms of path lengths. -/
theorem prob_path {r c : ℕ} (X : Table r c) :
    prob X = Real.exp (path X - lmult (total X) (List.ofFn (rowTot X))) := by
  unfold path lmult
  rw [sum_ofFn_map, sum_sub_distrib, sum_comm]
  rw [show ∑ j, lf (colTot X j) - ∑ i, ∑ j, lf (X i j) - (lf (total X) - ∑ i, lf (rowTot X i))
    = (∑ i, lf (rowTot X i) + ∑ j, lf (colTot X j)) - (lf (total X) + ∑ i, ∑ j, lf (X i j)) by ring]
  rw [Real.exp_sub, Real.exp_add, Real.exp_add, Real.exp_sum, Real.exp_sum, exp_lf, Real.exp_sum]
  simp only [Real.exp_sum, exp_lf]
  rfl

theorem tables_transpose {r c : ℕ} (R : Fin r → ℕ) (C : Fin c → ℕ) (F : Table r c → ℝ) :
    ∑ Y ∈ tables R C, F Y = ∑ Y ∈ tables C R, F (fun i j => Y j i) := by
  refine sum_bij' (fun Y _ => fun j i => Y i j) (fun Y _ => fun i j => Y j i) ?_ ?_ ?_ ?_ ?_
  · intro Y h; rw [mem_tables] at h ⊢; exact ⟨h.2, h.1⟩
  · intro Y h; rw [mem_tables] at h ⊢; exact ⟨h.2, h.1⟩
  · intros; rfl
  · intros; rfl
  · intros; rfl

theorem path_eq {r c : ℕ} {R : Fin r → ℕ} {C : Fin c → ℕ} {Y : Table r c} (h : Y ∈ tables R C) :
    path Y = ∑ j, lf (C j) - ∑ i, ∑ j, lf (Y i j) := by
  rw [mem_tables] at h
  unfold path
  rw [sum_sub_distrib, h.2, sum_comm]

theorem ofFn_get' (l : List ℕ) : ∃ (r : ℕ) (R : Fin r → ℕ), l = List.ofFn R := ⟨l.length, l.get, (List.ofFn_get l).symm⟩

/-- Rows and columns may be exchanged. -/
theorem W_transpose {l cols : List ℕ} (g : ℝ → ℝ) (h : l.sum = cols.sum) :
    W l cols g = W cols l (fun q => g (q + ((cols.map lf).sum - (l.map lf).sum))) := by
  obtain ⟨r, R, rfl⟩ := ofFn_get' l
  obtain ⟨c, C, rfl⟩ := ofFn_get' cols
  rw [List.sum_ofFn, List.sum_ofFn] at h
  rw [W_fin R C _ h, W_fin C R _ h.symm, tables_transpose]
  refine sum_congr rfl (fun Y hY => ?_)
  have hY' : (fun i j => Y j i) ∈ tables R C := by
    rw [mem_tables] at hY ⊢; exact ⟨hY.2, hY.1⟩
  rw [path_eq hY, path_eq hY', sum_ofFn_map, sum_ofFn_map, sum_comm (f := fun i j => lf (Y j i))]
  congr 1; ring

/-- The order of the columns does not matter. -/
theorem W_perm_cols {l cols cols' : List ℕ} (g : ℝ → ℝ) (hp : List.Perm cols cols') (h : l.sum = cols.sum) :
    W l cols g = W l cols' g := by
  have h' : l.sum = cols'.sum := by rw [h, hp.sum_eq]
  rw [W_transpose g h, W_transpose g h', W_perm _ hp, (hp.map lf).sum_eq]

theorem sum_margins {r c : ℕ} (X : Table r c) : ∑ i, rowTot X i = ∑ j, colTot X j := by
  unfold rowTot colTot; exact sum_comm

theorem total_rows {r c : ℕ} (X : Table r c) : ∑ i, rowTot X i = total X := rfl

/-- The sum over the tables with the margins of `X`, from the sorted margins. -/
theorem W_sorted {r c : ℕ} (X : Table r c) (g : ℝ → ℝ) :
    W (sortUp (List.ofFn (rowTot X))) (sortUp (List.ofFn (colTot X))) g
      = ∑ Y ∈ tables (rowTot X) (colTot X), g (path Y) := by
  rw [W_perm _ (sortUp_perm _), W_perm_cols _ (sortUp_perm _), W_fin _ _ _ (sum_margins X)]
  rw [(sortUp_perm _).sum_eq, List.sum_ofFn, List.sum_ofFn, sum_margins]

/-- The same with the roles of rows and columns exchanged. -/
theorem W_sorted_swap {r c : ℕ} (X : Table r c) (g : ℝ → ℝ) :
    W (sortUp (List.ofFn (colTot X))) (sortUp (List.ofFn (rowTot X))) g
      = ∑ Y ∈ tables (rowTot X) (colTot X), g (path Y + (∑ i, lf (rowTot X i) - ∑ j, lf (colTot X j))) := by
  have hs : (sortUp (List.ofFn (colTot X))).sum = (sortUp (List.ofFn (rowTot X))).sum := by
    rw [(sortUp_perm _).sum_eq, (sortUp_perm _).sum_eq, List.sum_ofFn, List.sum_ofFn, sum_margins]
  rw [W_transpose g hs, W_sorted]
  refine sum_congr rfl (fun Y _ => ?_)
  rw [((sortUp_perm _).map lf).sum_eq, ((sortUp_perm _).map lf).sum_eq, sum_ofFn_map, sum_ofFn_map]

theorem prob_transpose {r c : ℕ} (X : Table r c) : prob (fun j i => X i j) = prob X := by
  unfold prob
  rw [show total (fun j i => X i j) = total X from by unfold total; exact sum_comm]
  rw [prod_comm (f := fun i j => (((fun j i => X i j) i j).factorial : ℝ))]
  rw [mul_comm (∏ i, ((rowTot (fun j i => X i j) i).factorial : ℝ))]
  rfl

/-- The probabilities of all the tables with the same margins add up to one. -/
theorem prob_sum {r c : ℕ} (X : Table r c) : ∑ Y ∈ tables (rowTot X) (colTot X), prob Y = 1 := by
  have h := W_total (l := List.ofFn (rowTot X)) (cols := List.ofFn (colTot X))
    (by rw [List.sum_ofFn, List.sum_ofFn, sum_margins])
  rw [W_fin _ _ _ (sum_margins X), List.sum_ofFn, total_rows] at h
  have h2 : ∑ Y ∈ tables (rowTot X) (colTot X), prob Y
      = Real.exp (-lmult (total X) (List.ofFn (rowTot X))) * ∑ Y ∈ tables (rowTot X) (colTot X), Real.exp (path Y) := by
    rw [mul_sum]
    refine sum_congr rfl (fun Y hY => ?_)
    rw [mem_tables] at hY
    rw [prob_path, hY.1, show total Y = total X by rw [← total_rows, ← total_rows, hY.1], ← Real.exp_add]
    congr 1; ring
  rw [h2, h, ← Real.exp_add]; simp

end Apop.Fisher
