import Verif.Stats.Variance
import Mathlib.Analysis.SpecialFunctions.Pow.Real
import Mathlib.Algebra.BigOperators.Group.Finset.Basic
import Mathlib.Algebra.BigOperators.Ring.Finset
import Mathlib.Algebra.BigOperators.Field
import Mathlib.Algebra.Order.BigOperators.Group.Finset

/-! # C60: covariance and correlation matrices

Exact arithmetic over the reals. A cell that is NaN is `none`. -/

namespace Apop.Stats
open Real

/-- The cells of the output matrix. -/
abbrev Cells := ℕ → ℕ → Option ℝ

/-- `gsl_matrix_set`. -/
def setCell (c : Cells) (i j : ℕ) (x : Option ℝ) : Cells := fun a b => if a = i ∧ b = j then x else c a b

/-- Column `i` of the data, `Apop_cv(in, i)`. -/
def colOf (rows : List (List ℝ)) (i : ℕ) : List ℝ := rows.map (fun r => r.getD i 0)

/-- The inner loop of `apop_data_covariance`, apop_stats.m4.c:583-587. -/
noncomputable def covInner (rows : List (List ℝ)) (w : Option (List ℝ)) (i : ℕ) : List ℕ → Cells → Cells
  | [], c => c
  | j :: js, c =>
    let x := vectorCov (some (colOf rows i)) (some (colOf rows j)) w
    covInner rows w i js (if i ≠ j then setCell (setCell c i j x) j i x else setCell c i j x)

/-- The outer loop, apop_stats.m4.c:582-588. -/
noncomputable def covOuter (rows : List (List ℝ)) (w : Option (List ℝ)) (n : ℕ) : List ℕ → Cells → Cells
  | [], c => c
  | i :: is, c => covOuter rows w n is (covInner rows w i (List.range' i (n - i)) c)

/-- The matrix of `apop_data_covariance`, apop_stats.m4.c:577-592, for data with `n` columns; `junk` is what the new matrix holds. (The names are those of C03.) -/
noncomputable def covMatrix (junk : Cells) (rows : List (List ℝ)) (w : Option (List ℝ)) (n : ℕ) : Cells := covOuter rows w n (List.range n) junk

/-- `gsl_vector_scale(v, 1.0/sd)` on one cell: NaN for what is not a number, or if `1.0/sd` is not. -/
noncomputable def scaleCell (sd : Option ℝ) (x : Option ℝ) : Option ℝ := do
  let x ← x
  let sd ← sd
  cdiv x sd

/-- One round of `apop_data_correlation`, apop_stats.m4.c:605-607: column `i` and then row `i` are divided by `sd`. -/
noncomputable def corrStep (sd : Option ℝ) (i : ℕ) (c : Cells) : Cells :=
  let c1 : Cells := fun a b => if b = i then scaleCell sd (c a b) else c a b
  fun a b => if a = i then scaleCell sd (c1 a b) else c1 a b

/-- The standard deviation of line 605. -/
noncomputable def sdOf (rows : List (List ℝ)) (w : Option (List ℝ)) (i : ℕ) : Option ℝ := (vectorVar (some (colOf rows i)) w).map (fun v => √v)

/-- The loop, lines 604-608. -/
noncomputable def corrLoop (rows : List (List ℝ)) (w : Option (List ℝ)) : List ℕ → Cells → Cells
  | [], c => c
  | i :: is, c => corrLoop rows w is (corrStep (sdOf rows w i) i c)

/-- The matrix of `apop_data_correlation`, apop_stats.m4.c:601-610. -/
noncomputable def corrMatrix (junk : Cells) (rows : List (List ℝ)) (w : Option (List ℝ)) (n : ℕ) : Cells := corrLoop rows w (List.range n) (covMatrix junk rows w n)

/-! ## What the loops write -/

theorem covInner_eq (rows : List (List ℝ)) (w : Option (List ℝ)) (i : ℕ) : ∀ (js : List ℕ) (c : Cells) (a b : ℕ),
    covInner rows w i js c a b = if (a = i ∧ b ∈ js) ∨ (b = i ∧ a ∈ js) then vectorCov (some (colOf rows a)) (some (colOf rows b)) w else c a b
  | [], c, a, b => by simp [covInner]
  | j :: js, c, a, b => by
    rw [covInner, covInner_eq rows w i js]
    by_cases h : (a = i ∧ b ∈ js) ∨ (b = i ∧ a ∈ js)
    · have h' : (a = i ∧ b ∈ j :: js) ∨ (b = i ∧ a ∈ j :: js) := by
        rcases h with ⟨h1, h2⟩ | ⟨h1, h2⟩
        · exact Or.inl ⟨h1, List.mem_cons_of_mem _ h2⟩
        · exact Or.inr ⟨h1, List.mem_cons_of_mem _ h2⟩
      rw [if_pos h, if_pos h']
    · rw [if_neg h]
      by_cases h1 : a = i ∧ b = j
      · obtain ⟨rfl, rfl⟩ := h1
        rw [if_pos (Or.inl ⟨rfl, by simp⟩)]
        by_cases hij : a = b
        · subst hij; simp [setCell]
        · simp [setCell, hij]
      · by_cases h2 : a = j ∧ b = i
        · obtain ⟨rfl, rfl⟩ := h2
          rw [if_pos (Or.inr ⟨rfl, by simp⟩)]
          have hij : b ≠ a := fun e => h1 ⟨e.symm, e⟩
          simp [setCell, hij, C52_cov_comm (colOf rows b)]
        · have h' : ¬((a = i ∧ b ∈ j :: js) ∨ (b = i ∧ a ∈ j :: js)) := by
            rintro (⟨e1, e2⟩ | ⟨e1, e2⟩)
            · rcases List.mem_cons.1 e2 with e2 | e2
              · exact h1 ⟨e1, e2⟩
              · exact h (Or.inl ⟨e1, e2⟩)
            · rcases List.mem_cons.1 e2 with e2 | e2
              · exact h2 ⟨e2, e1⟩
              · exact h (Or.inr ⟨e1, e2⟩)
          rw [if_neg h']
          split
          · simp [setCell, h1, h2]
          · simp [setCell, h1]

theorem covOuter_eq (rows : List (List ℝ)) (w : Option (List ℝ)) (n : ℕ) : ∀ (is : List ℕ) (c : Cells) (a b : ℕ), a < n → b < n →
    covOuter rows w n is c a b = if min a b ∈ is then vectorCov (some (colOf rows a)) (some (colOf rows b)) w else c a b
  | [], c, a, b, _, _ => by simp [covOuter]
  | i :: is, c, a, b, ha, hb => by
    rw [covOuter, covOuter_eq rows w n is _ a b ha hb, covInner_eq]
    by_cases h : min a b ∈ is
    · rw [if_pos h, if_pos (List.mem_cons_of_mem _ h)]
    · rw [if_neg h]
      have : ((a = i ∧ b ∈ List.range' i (n - i)) ∨ (b = i ∧ a ∈ List.range' i (n - i))) ↔ min a b ∈ i :: is := by
        simp only [List.mem_range'_1, List.mem_cons, h, or_false]
        omega
      simp only [this]

/-- **C60 (cells).** Cell (a, b) of the covariance matrix is the covariance of columns a and b. -/
theorem C60_cov_cells (junk : Cells) (rows : List (List ℝ)) (w : Option (List ℝ)) (n a b : ℕ) (ha : a < n) (hb : b < n) :
    covMatrix junk rows w n a b = vectorCov (some (colOf rows a)) (some (colOf rows b)) w := by
  rw [covMatrix, covOuter_eq rows w n _ _ a b ha hb, if_pos]
  rw [List.mem_range]
  omega

/-- **C60 (symmetry).** -/
theorem C60_cov_symm (junk : Cells) (rows : List (List ℝ)) (w : Option (List ℝ)) (n a b : ℕ) (ha : a < n) (hb : b < n) :
    covMatrix junk rows w n a b = covMatrix junk rows w n b a := by
  rw [C60_cov_cells junk rows w n a b ha hb, C60_cov_cells junk rows w n b a hb ha, C52_cov_comm]

/-! ## The covariances as one bilinear form -/

/-- Data for which the statistics are defined: at least two rows; with weights, one for each row, none negative, that sum to at least 11/10 (replicate weights). -/
def GoodWeights (rows : List (List ℝ)) : Option (List ℝ) → Prop
  | none => 2 ≤ rows.length
  | some w => w.length = rows.length ∧ rows ≠ [] ∧ (∀ x ∈ w, 0 ≤ x) ∧ 11 / 10 ≤ w.sum

/-- The weighted sum of a function of the row. -/
def wsum (P : List (ℝ × List ℝ)) (f : List ℝ → ℝ) : ℝ := (P.map (fun p => p.1 * f p.2)).sum

theorem zipWith_maps (f g : List ℝ → ℝ) (h : ℝ → ℝ → ℝ) (rows : List (List ℝ)) : List.zipWith h (rows.map f) (rows.map g) = rows.map (fun r => h (f r) (g r)) := by
  induction rows with
  | nil => rfl
  | cons r rows ih => simp [ih]

theorem zipWith_zip (f : List ℝ → ℝ) : ∀ (w : List ℝ) (rows : List (List ℝ)), List.zipWith (fun a x => a * x) w (rows.map f) = (List.zip w rows).map (fun p => p.1 * f p.2)
  | [], _ => by simp
  | _ :: _, [] => by simp
  | a :: w, r :: rows => by simp [zipWith_zip f w rows]

theorem zip_sum : ∀ (w : List ℝ) (rows : List (List ℝ)), w.length = rows.length → ((List.zip w rows).map (fun p => p.1)).sum = w.sum
  | [], _, _ => by simp
  | a :: w, [], h => by simp at h
  | a :: w, r :: rows, h => by simp [zip_sum w rows (by simpa using h)]

theorem unit_wsum (rows : List (List ℝ)) (f : List ℝ → ℝ) : wsum (rows.map (fun r => ((1 : ℝ), r))) f = (rows.map f).sum := by
  simp [wsum, List.map_map, Function.comp_def]

theorem sum_map_lin (rows : List (List ℝ)) (f g : List ℝ → ℝ) (a b c : ℝ) :
    (rows.map (fun r => f r * g r + a * f r + b * g r + c)).sum = (rows.map (fun r => f r * g r)).sum + a * (rows.map f).sum + b * (rows.map g).sum + rows.length * c := by
  induction rows with
  | nil => simp
  | cons r rows ih => simp only [List.map_cons, List.sum_cons, ih, List.length_cons]; push_cast; ring

theorem cov_form_mem (rows : List (List ℝ)) (w : Option (List ℝ)) (hw : GoodWeights rows w) : ∃ (P : List (ℝ × List ℝ)) (W : ℝ), (∀ p ∈ P, p.2 ∈ rows) ∧ 1 < W ∧ (∀ p ∈ P, 0 ≤ p.1) ∧
    (P.map (fun p => p.1)).sum = W ∧ ∀ i j : ℕ, vectorCov (some (colOf rows i)) (some (colOf rows j)) w =
      some ((wsum P (fun r => r.getD i 0 * r.getD j 0) / W - wsum P (fun r => r.getD i 0) * wsum P (fun r => r.getD j 0) / W ^ 2) * (W / (W - 1))) := by
  cases w with
  | none =>
    have h2 : 2 ≤ rows.length := hw
    have hW : (2 : ℝ) ≤ rows.length := by exact_mod_cast h2
    refine ⟨rows.map (fun r => ((1 : ℝ), r)), rows.length, by intro p hp; obtain ⟨r, hr, rfl⟩ := List.mem_map.1 hp; exact hr, by linarith, ?_, ?_, ?_⟩
    · intro p hp; obtain ⟨r, _, rfl⟩ := List.mem_map.1 hp; norm_num
    · simp [List.map_map, Function.comp_def]
    · intro i j
      rw [C52_cov _ _ (by simp [colOf]) (by simpa [colOf] using h2)]
      simp only [colOf, List.length_map, unit_wsum]
      rw [zipWith_maps]
      congr 1
      set f : List ℝ → ℝ := fun r => r.getD i 0
      set g : List ℝ → ℝ := fun r => r.getD j 0
      have e : (fun r => (f r - (rows.map f).sum / rows.length) * (g r - (rows.map g).sum / rows.length)) =
          (fun r => f r * g r + (-((rows.map g).sum / rows.length)) * f r + (-((rows.map f).sum / rows.length)) * g r +
            ((rows.map f).sum / rows.length) * ((rows.map g).sum / rows.length)) := by funext r; ring
      change (rows.map (fun r => (f r - (rows.map f).sum / rows.length) * (g r - (rows.map g).sum / rows.length))).sum / ((rows.length : ℝ) - 1) = _
      rw [e, sum_map_lin]
      have n1 : (rows.length : ℝ) ≠ 0 := by linarith
      have n2 : (rows.length : ℝ) - 1 ≠ 0 := by linarith
      field_simp
      ring
  | some w =>
    obtain ⟨h1, h2, h3, h4⟩ := hw
    refine ⟨List.zip w rows, w.sum, fun p hp => (List.of_mem_zip hp).2, by linarith, ?_, zip_sum w rows h1, ?_⟩
    · intro p hp; exact h3 _ (List.of_mem_zip hp).1
    · intro i j
      have hc : ∀ k, colOf rows k ≠ [] := fun k => by simpa [colOf] using h2
      have hl : ∀ k, (colOf rows k).length = w.length := fun k => by simp [colOf, h1]
      simp only [vectorCov, hc, hl, ne_eq, not_true_eq_false, or_self, if_false]
      rw [covLoop_eq _ _ w (by simp [hl]) (by simp [hl])]
      simp only [zero_add]
      rw [weightLen, if_neg (by linarith)]
      have n1 : w.sum ≠ 0 := by linarith
      have n2 : w.sum - 1 ≠ 0 := by linarith
      simp only [covFrom, cdiv, n1, n2, if_false, Option.bind_eq_bind, Option.bind_some, pow_eq_zero_iff, ne_eq, OfNat.ofNat_ne_zero, not_false_eq_true]
      have e1 : ∀ k, (List.zipWith (fun a x => a * x) w (colOf rows k)).sum = wsum (List.zip w rows) (fun r => r.getD k 0) := fun k => by rw [colOf, zipWith_zip]; rfl
      have e2 : (List.zipWith (fun c xy => c * xy) w (List.zipWith (fun x y => x * y) (colOf rows i) (colOf rows j))).sum = wsum (List.zip w rows) (fun r => r.getD i 0 * r.getD j 0) := by
        rw [colOf, colOf, zipWith_maps, zipWith_zip]; rfl
      rw [e1, e1, e2]

theorem cov_form (rows : List (List ℝ)) (w : Option (List ℝ)) (hw : GoodWeights rows w) : ∃ (P : List (ℝ × List ℝ)) (W : ℝ), 1 < W ∧ (∀ p ∈ P, 0 ≤ p.1) ∧
    (P.map (fun p => p.1)).sum = W ∧ ∀ i j : ℕ, vectorCov (some (colOf rows i)) (some (colOf rows j)) w =
      some ((wsum P (fun r => r.getD i 0 * r.getD j 0) / W - wsum P (fun r => r.getD i 0) * wsum P (fun r => r.getD j 0) / W ^ 2) * (W / (W - 1))) := by
  obtain ⟨P, W, -, h⟩ := cov_form_mem rows w hw
  exact ⟨P, W, h⟩

/-! ## Positive semidefinite -/

theorem wsum_finset (P : List (ℝ × List ℝ)) (s : Finset ℕ) (f : ℕ → List ℝ → ℝ) : ∑ i ∈ s, wsum P (f i) = wsum P (fun r => ∑ i ∈ s, f i r) := by
  unfold wsum
  induction P with
  | nil => simp
  | cons p P ih => simp only [List.map_cons, List.sum_cons, Finset.sum_add_distrib, ih, Finset.mul_sum]

theorem wsum_mul (P : List (ℝ × List ℝ)) (c : ℝ) (f : List ℝ → ℝ) : c * wsum P f = wsum P (fun r => c * f r) := by
  unfold wsum
  rw [← List.sum_map_mul_left]
  congr 1
  apply List.map_congr_left
  intro p _
  ring

theorem wsum_sq (P : List (ℝ × List ℝ)) (hP : ∀ p ∈ P, 0 ≤ p.1) (f : List ℝ → ℝ) : wsum P f ^ 2 ≤ (P.map (fun p => p.1)).sum * wsum P (fun r => f r ^ 2) := by
  unfold wsum
  induction P with
  | nil => simp
  | cons p P ih =>
    have ih := ih (fun q hq => hP q (List.mem_cons_of_mem _ hq))
    have hp := hP p (by simp)
    simp only [List.map_cons, List.sum_cons]
    set A := (P.map (fun p => p.1 * f p.2)).sum
    set W := (P.map (fun p => p.1)).sum
    set B := (P.map (fun p => p.1 * f p.2 ^ 2)).sum
    have hW : 0 ≤ W := List.sum_nonneg (fun z hz => by obtain ⟨q, hq, rfl⟩ := List.mem_map.1 hz; exact hP q (List.mem_cons_of_mem _ hq))
    have hB : 0 ≤ B := List.sum_nonneg (fun z hz => by
      obtain ⟨q, hq, rfl⟩ := List.mem_map.1 hz; exact mul_nonneg (hP q (List.mem_cons_of_mem _ hq)) (sq_nonneg _))
    have key : 0 ≤ W * f p.2 ^ 2 - 2 * f p.2 * A + B := by
      rcases hW.lt_or_eq with hW' | hW'
      · have : 0 ≤ W * (W * f p.2 ^ 2 - 2 * f p.2 * A + B) := by nlinarith [sq_nonneg (W * f p.2 - A)]
        exact nonneg_of_mul_nonneg_right this hW'
      · rw [← hW', zero_mul] at ih
        have : A = 0 := by nlinarith [sq_nonneg A]
        rw [← hW', this]; linarith
    nlinarith [mul_nonneg hp key]

/-- The quadratic form of a matrix of numbers. -/
noncomputable def quad (n : ℕ) (c : Cells) (x : ℕ → ℝ) : ℝ := ∑ a ∈ Finset.range n, ∑ b ∈ Finset.range n, x a * x b * (c a b).getD 0

/-- **C60 (positive semidefinite).** All cells are numbers, and `x' C x >= 0` for every `x`. -/
theorem C60_cov_psd (junk : Cells) (rows : List (List ℝ)) (w : Option (List ℝ)) (n : ℕ) (hw : GoodWeights rows w) :
    (∀ a b, a < n → b < n → (covMatrix junk rows w n a b).isSome) ∧ ∀ x, 0 ≤ quad n (covMatrix junk rows w n) x := by
  obtain ⟨P, W, hW, hP, hsum, hc⟩ := cov_form rows w hw
  constructor
  · intro a b ha hb
    rw [C60_cov_cells junk rows w n a b ha hb, hc]; rfl
  · intro x
    set z : List ℝ → ℝ := fun r => ∑ a ∈ Finset.range n, x a * r.getD a 0 with hz
    have e1 : ∑ a ∈ Finset.range n, x a * wsum P (fun r => r.getD a 0) = wsum P z := by
      rw [hz, ← wsum_finset]
      apply Finset.sum_congr rfl
      intro a _
      rw [wsum_mul]
    have e2 : ∑ a ∈ Finset.range n, ∑ b ∈ Finset.range n, x a * x b * wsum P (fun r => r.getD a 0 * r.getD b 0) = wsum P (fun r => z r ^ 2) := by
      have : (fun r => z r ^ 2) = fun r : List ℝ => ∑ a ∈ Finset.range n, ∑ b ∈ Finset.range n, x a * x b * (r.getD a 0 * r.getD b 0) := by
        funext r
        rw [hz, pow_two, Finset.sum_mul_sum]
        apply Finset.sum_congr rfl; intro a _
        apply Finset.sum_congr rfl; intro b _
        ring
      rw [this, ← wsum_finset]
      apply Finset.sum_congr rfl; intro a _
      rw [← wsum_finset]
      apply Finset.sum_congr rfl; intro b _
      rw [wsum_mul]
    have hq : quad n (covMatrix junk rows w n) x = (wsum P (fun r => z r ^ 2) / W - wsum P z ^ 2 / W ^ 2) * (W / (W - 1)) := by
      rw [← e2, ← e1, pow_two (∑ a ∈ Finset.range n, x a * wsum P (fun r => r.getD a 0)), Finset.sum_mul_sum, Finset.sum_div, Finset.sum_div, ← Finset.sum_sub_distrib, Finset.sum_mul]
      unfold quad
      apply Finset.sum_congr rfl; intro a ha
      rw [Finset.sum_div, Finset.sum_div, ← Finset.sum_sub_distrib, Finset.sum_mul]
      apply Finset.sum_congr rfl; intro b hb
      rw [C60_cov_cells junk rows w n a b (Finset.mem_range.1 ha) (Finset.mem_range.1 hb), hc, Option.getD_some]
      ring
    rw [hq]
    have h0 : 0 < W := by linarith
    have hcs := wsum_sq P hP z
    rw [hsum] at hcs
    apply mul_nonneg
    · rw [sub_nonneg, div_le_div_iff₀ (by positivity) h0]
      nlinarith
    · exact div_nonneg h0.le (by linarith)

/-! ## Correlations -/

theorem scaleCell_some (sd x : ℝ) (h : sd ≠ 0) : scaleCell (some sd) (some x) = some (x / sd) := by simp [scaleCell, cdiv, h]

theorem corrLoop_eq (rows : List (List ℝ)) (w : Option (List ℝ)) (σ : ℕ → ℝ) : ∀ (is : List ℕ) (c : Cells) (a b : ℕ) (x : ℝ), is.Nodup →
    (∀ i ∈ is, sdOf rows w i = some (σ i) ∧ σ i ≠ 0) → c a b = some x →
    corrLoop rows w is c a b = some (x / ((if a ∈ is then σ a else 1) * (if b ∈ is then σ b else 1)))
  | [], c, a, b, x, _, _, hc => by simp [corrLoop, hc]
  | i :: is, c, a, b, x, hnd, hs, hc => by
    obtain ⟨hi, hnd⟩ := List.nodup_cons.1 hnd
    obtain ⟨hs1, hs2⟩ := hs i (by simp)
    rw [corrLoop]
    have hstep : corrStep (sdOf rows w i) i c a b = some (x / ((if a = i then σ a else 1) * (if b = i then σ b else 1))) := by
      unfold corrStep
      by_cases hb : b = i
      · by_cases ha : a = i
        · subst hb; subst ha
          simp only [if_true, hc, hs1, scaleCell_some _ _ hs2]
          rw [div_div]
        · subst hb; simp only [if_true, ha, if_false, hc, hs1, scaleCell_some _ _ hs2, one_mul]
      · by_cases ha : a = i
        · subst ha; simp only [if_true, hb, if_false, hc, hs1, scaleCell_some _ _ hs2, mul_one]
        · simp [ha, hb, hc]
    rw [corrLoop_eq rows w σ is _ a b _ hnd (fun k hk => hs k (List.mem_cons_of_mem _ hk)) hstep]
    simp only [List.mem_cons]
    congr 1
    rw [div_div]
    congr 1
    by_cases ha : a = i
    · subst ha
      by_cases hb : b = a
      · subst hb; simp [hi]
      · by_cases hb2 : b ∈ is <;> simp [hi, hb, hb2]
    · by_cases hb : b = i
      · subst hb
        by_cases ha2 : a ∈ is <;> simp [hi, ha, ha2, mul_comm]
      · by_cases ha2 : a ∈ is <;> by_cases hb2 : b ∈ is <;> simp [ha, hb, ha2, hb2]

theorem form_two {p q A B c s : ℝ} (hp : p ≠ 0) (hq : q ≠ 0) (hA : p ^ 2 = A) (hB : q ^ 2 = B) :
    1 / p * (1 / p) * A + 1 / p * (s / q) * c + (s / q * (1 / p) * c + s / q * (s / q) * B) = 1 + s ^ 2 + 2 * s * (c / (p * q)) := by
  subst hA hB
  field_simp
  ring

/-- **C60 (correlations).** If no column is constant (positive variance), cell (a, b) is cov(a, b)/(sd a · sd b); the diagonal is one, the matrix is symmetric, and every cell lies in [-1, 1]. -/
theorem C60_correlation (junk : Cells) (rows : List (List ℝ)) (w : Option (List ℝ)) (n : ℕ) (hw : GoodWeights rows w)
    (σ2 : ℕ → ℝ) (hv : ∀ i < n, vectorVar (some (colOf rows i)) w = some (σ2 i) ∧ 0 < σ2 i) (a b : ℕ) (ha : a < n) (hb : b < n) :
    ∃ c r, vectorCov (some (colOf rows a)) (some (colOf rows b)) w = some c ∧ corrMatrix junk rows w n a b = some r ∧ r = c / (√(σ2 a) * √(σ2 b)) ∧
      corrMatrix junk rows w n b a = some r ∧ (a = b → r = 1) ∧ -1 ≤ r ∧ r ≤ 1 := by
  obtain ⟨hnum, hpsd⟩ := C60_cov_psd junk rows w n hw
  obtain ⟨P, W, _, _, _, hcf⟩ := cov_form rows w hw
  have hcell : ∀ i j, i < n → j < n → ∃ x, vectorCov (some (colOf rows i)) (some (colOf rows j)) w = some x ∧ covMatrix junk rows w n i j = some x := by
    intro i j hi hj
    rw [C60_cov_cells junk rows w n i j hi hj, hcf i j]
    exact ⟨_, rfl, rfl⟩
  have hsd : ∀ i ∈ List.range n, sdOf rows w i = some (√(σ2 i)) ∧ √(σ2 i) ≠ 0 := by
    intro i hi
    obtain ⟨h1, h2⟩ := hv i (List.mem_range.1 hi)
    exact ⟨by simp [sdOf, h1], (Real.sqrt_pos.2 h2).ne'⟩
  have hcorr : ∀ i j x, i < n → j < n → covMatrix junk rows w n i j = some x → corrMatrix junk rows w n i j = some (x / (√(σ2 i) * √(σ2 j))) := by
    intro i j x hi hj hx
    have := corrLoop_eq rows w (fun i => √(σ2 i)) (List.range n) _ i j x List.nodup_range hsd hx
    simpa [corrMatrix, hi, hj] using this
  have hdiag : ∀ i < n, covMatrix junk rows w n i i = some (σ2 i) := by
    intro i hi
    rw [C60_cov_cells junk rows w n i i hi hi, C52_cov_self]
    exact (hv i hi).1
  obtain ⟨c, hc1, hc2⟩ := hcell a b ha hb
  have sa : 0 < √(σ2 a) := Real.sqrt_pos.2 (hv a ha).2
  have sb : 0 < √(σ2 b) := Real.sqrt_pos.2 (hv b hb).2
  have qa : √(σ2 a) ^ 2 = σ2 a := Real.sq_sqrt (hv a ha).2.le
  have qb : √(σ2 b) ^ 2 = σ2 b := Real.sq_sqrt (hv b hb).2.le
  have hc3 : covMatrix junk rows w n b a = some c := by rw [← C60_cov_symm junk rows w n a b ha hb]; exact hc2
  have hone : a = b → c / (√(σ2 a) * √(σ2 b)) = 1 := by
    rintro rfl
    have : c = σ2 a := by have := hdiag a ha; rw [hc2] at this; exact Option.some.inj this
    rw [this, ← pow_two, qa]
    exact div_self (hv a ha).2.ne'
  refine ⟨c, _, hc1, hcorr a b c ha hb hc2, rfl, ?_, hone, ?_⟩
  · rw [hcorr b a c hb ha hc3, mul_comm]
  · by_cases hab : a = b
    · rw [hone hab]; norm_num
    · have hform : ∀ s : ℝ, quad n (covMatrix junk rows w n) (fun i => if i = a then 1 / √(σ2 a) else if i = b then s / √(σ2 b) else 0) =
          1 + s ^ 2 + 2 * s * (c / (√(σ2 a) * √(σ2 b))) := by
        intro s
        have hba : b ≠ a := fun e => hab e.symm
        unfold quad
        set x : ℕ → ℝ := fun i => if i = a then 1 / √(σ2 a) else if i = b then s / √(σ2 b) else 0 with hx
        have hxa : x a = 1 / √(σ2 a) := by simp [hx]
        have hxb : x b = s / √(σ2 b) := by simp [hx, hba]
        have hx0 : ∀ i, i ≠ a → i ≠ b → x i = 0 := by intro i h1 h2; simp [hx, h1, h2]
        have two : ∀ f : ℕ → ℝ, (∀ i, i ≠ a → i ≠ b → f i = 0) → ∑ i ∈ Finset.range n, f i = f a + f b := by
          intro f hf
          rw [Finset.sum_eq_add a b hab (fun i _ h => hf i h.1 h.2) (fun h => absurd (Finset.mem_range.2 ha) h) (fun h => absurd (Finset.mem_range.2 hb) h)]
        have inner : ∀ i, ∑ j ∈ Finset.range n, x i * x j * (covMatrix junk rows w n i j).getD 0 =
            x i * x a * (covMatrix junk rows w n i a).getD 0 + x i * x b * (covMatrix junk rows w n i b).getD 0 := by
          intro i
          apply two (fun j => x i * x j * (covMatrix junk rows w n i j).getD 0)
          intro j h1 h2
          simp [hx0 j h1 h2]
        simp only [inner]
        rw [two (fun i => x i * x a * (covMatrix junk rows w n i a).getD 0 + x i * x b * (covMatrix junk rows w n i b).getD 0) (by intro i h1 h2; simp [hx0 i h1 h2])]
        simp only [hdiag a ha, hdiag b hb, hc2, hc3, Option.getD_some, hxa, hxb]
        exact form_two sa.ne' sb.ne' qa qb
      have h1 := hpsd (fun i => if i = a then 1 / √(σ2 a) else if i = b then 1 / √(σ2 b) else 0)
      have h2 := hpsd (fun i => if i = a then 1 / √(σ2 a) else if i = b then (-1) / √(σ2 b) else 0)
      rw [hform 1] at h1
      rw [hform (-1)] at h2
      constructor <;> linarith

/-- A constant column: its correlations are NaN. -/
theorem C60_constant_nan (rows : List (List ℝ)) (w : Option (List ℝ)) (i : ℕ) (h : vectorVar (some (colOf rows i)) w = some 0) (c : Cells) (b : ℕ) :
    corrStep (sdOf rows w i) i c i b = none := by
  unfold corrStep
  simp only [sdOf, h, Option.map_some, Real.sqrt_zero, if_true]
  generalize (if b = i then scaleCell (some 0) (c i b) else c i b) = y
  cases y <;> simp [scaleCell, cdiv]

/-- Not vacuous: three rows, two columns. -/
example : GoodWeights [[1, 2], [2, 5], [4, 3]] none ∧ vectorVar (some (colOf [[1, 2], [2, 5], [4, 3]] 0)) none = some (7 / 3) := by
  constructor
  · simp [GoodWeights]
  · rw [C52_var _ (by simp [colOf])]
    norm_num [colOf]

end Apop.Stats
