import Verif.Fisher.Sum

/-! # Sums over all the ways to complete a table

Mathematics used for apop_test_fisher_exact (apop_fexact.c); nothing here models
code. -/

namespace Apop.Fisher
open Finset

/-- Sum of `g` (path length) over all tables with row totals `l` and column totals
`cols`, column by column. The path length of a table is the sum over its columns
of the logarithm of the column's multinomial coefficient. -/
noncomputable def W : List ℕ → List ℕ → (ℝ → ℝ) → ℝ
  | _, [], g => g 0
  | l, c :: cs, g => S l c (fun ps => W (ps.map Prod.snd) cs (fun q => g (lmult c (ps.map Prod.fst) + q)))

/-- `q` is the path length of some table with these row and column totals. -/
def Len : List ℕ → List ℕ → ℝ → Prop
  | _, [], q => q = 0
  | l, c :: cs, q => ∃ ps q', Way l c ps ∧ Len (ps.map Prod.snd) cs q' ∧ q = lmult c (ps.map Prod.fst) + q'

theorem W_le {cols : List ℕ} : ∀ {l : List ℕ} {g g' : ℝ → ℝ},
    (∀ q, Len l cols q → g q ≤ g' q) → W l cols g ≤ W l cols g' := by
  induction cols with
  | nil => intro l g g' h; exact h 0 rfl
  | cons c cs ih =>
    intro l g g' h
    unfold W
    exact S_le (fun ps hp => ih (fun q hq => h _ ⟨ps, q, hp, hq, rfl⟩))

theorem W_congr {l cols : List ℕ} {g g' : ℝ → ℝ} (h : ∀ q, Len l cols q → g q = g' q) :
    W l cols g = W l cols g' :=
  le_antisymm (W_le fun q hq => (h q hq).le) (W_le fun q hq => (h q hq).ge)

theorem W_mul (k : ℝ) {cols : List ℕ} : ∀ {l : List ℕ} {g : ℝ → ℝ},
    W l cols (fun q => k * g q) = k * W l cols g := by
  induction cols with
  | nil => intro l g; rfl
  | cons c cs ih =>
    intro l g
    unfold W
    rw [← S_mul]
    exact S_congr (fun ps _ => ih)

theorem W_zero {l cols : List ℕ} : W l cols (fun _ => 0) = 0 := by
  have h := W_mul (l := l) (cols := cols) (g := fun _ => 0) 0
  simpa using h

theorem W_nonneg {l cols : List ℕ} {g : ℝ → ℝ} (h : ∀ q, 0 ≤ g q) : 0 ≤ W l cols g := by
  rw [← W_zero (l := l) (cols := cols)]
  exact W_le (fun q _ => h q)

theorem lmult_perm {n : ℕ} {l l' : List ℕ} (h : List.Perm l l') : lmult n l = lmult n l' := by
  unfold lmult
  rw [(h.map lf).sum_eq]

theorem W_perm {cols : List ℕ} : ∀ {l l' : List ℕ} (g : ℝ → ℝ), List.Perm l l' → W l cols g = W l' cols g := by
  induction cols with
  | nil => intros; rfl
  | cons c cs ih =>
    intro l l' g hp
    unfold W
    refine S_perm hp c _ (fun ps qs h => ?_)
    rw [lmult_perm (h.map Prod.fst)]
    exact ih _ (h.map Prod.snd)

theorem lmult_cons_zero (n : ℕ) (l : List ℕ) : lmult n (0 :: l) = lmult n l := by
  simp [lmult, lf_zero]

theorem W_cons_zero {cols : List ℕ} : ∀ {l : List ℕ} (g : ℝ → ℝ), W (0 :: l) cols g = W l cols g := by
  induction cols with
  | nil => intros; rfl
  | cons c cs ih =>
    intro l g
    unfold W
    simp only [S, Nat.zero_add, Finset.range_one, Finset.sum_singleton, Nat.zero_le, if_true, Nat.sub_zero,
      List.map_cons]
    exact S_congr (fun ps _ => by rw [lmult_cons_zero]; exact ih _)

/-- The rows that still have something in them. -/
def nonzero (l : List ℕ) : List ℕ := l.dropWhile (fun x => x == 0)

theorem W_nonzero {cols : List ℕ} (l : List ℕ) (g : ℝ → ℝ) : W (nonzero l) cols g = W l cols g := by
  induction l with
  | nil => rfl
  | cons a l ih =>
    unfold nonzero at *
    by_cases ha : a = 0
    · subst ha
      rw [List.dropWhile_cons_of_pos (by simp), ih, W_cons_zero]
    · rw [List.dropWhile_cons_of_neg (by simpa using ha)]

theorem lmult_nonzero (n : ℕ) (l : List ℕ) : lmult n (nonzero l) = lmult n l := by
  induction l with
  | nil => rfl
  | cons a l ih =>
    unfold nonzero at *
    by_cases ha : a = 0
    · subst ha
      rw [List.dropWhile_cons_of_pos (by simp), ih, lmult_cons_zero]
    · rw [List.dropWhile_cons_of_neg (by simpa using ha)]

theorem S_pos {l : List ℕ} : ∀ {n : ℕ} {F : List (ℕ × ℕ) → ℝ}, (∀ ps, 0 ≤ F ps) →
    (0 < S l n F ↔ ∃ ps, Way l n ps ∧ 0 < F ps) := by
  induction l with
  | nil =>
    intro n F hF
    by_cases hn : n = 0
    · subst hn
      simp only [S, if_true]
      exact ⟨fun h => ⟨[], Way.nil, h⟩, fun ⟨ps, hp, h⟩ => by cases hp; exact h⟩
    · simp only [S, if_neg hn]
      exact ⟨fun h => absurd h (lt_irrefl _), fun ⟨ps, hp, h⟩ => by cases hp; exact absurd rfl hn⟩
  | cons a l ih =>
    intro n F hF
    unfold S
    have hnn : ∀ x ∈ range (a + 1), 0 ≤ (if x ≤ n then S l (n - x) (fun ps => F ((x, a - x) :: ps)) else 0) := by
      intro x _
      by_cases hn : x ≤ n
      · rw [if_pos hn]; exact S_nonneg (fun ps => hF _)
      · rw [if_neg hn]
    constructor
    · intro h
      have hne : ∃ x ∈ range (a + 1), 0 < (if x ≤ n then S l (n - x) (fun ps => F ((x, a - x) :: ps)) else 0) := by
        by_contra hc
        push Not at hc
        exact absurd h (not_lt.mpr (Finset.sum_nonpos hc))
      obtain ⟨x, hx, hp⟩ := hne
      by_cases hn : x ≤ n
      · rw [if_pos hn] at hp
        obtain ⟨ps, hw, hf⟩ := (ih (fun ps => hF _)).mp hp
        exact ⟨_, Way.cons x (by simpa [Nat.lt_succ_iff] using hx) hn hw, hf⟩
      · rw [if_neg hn] at hp; exact absurd hp (lt_irrefl _)
    · rintro ⟨ps, hw, hf⟩
      cases hw with
      | cons x hx hn hw =>
        refine Finset.sum_pos' hnn ⟨x, by simp; omega, ?_⟩
        rw [if_pos hn]
        exact (ih (fun ps => hF _)).mpr ⟨_, hw, hf⟩

theorem W_pos {cols : List ℕ} : ∀ {l : List ℕ} {g : ℝ → ℝ}, (∀ q, 0 ≤ g q) →
    (0 < W l cols g ↔ ∃ q, Len l cols q ∧ 0 < g q) := by
  induction cols with
  | nil =>
    intro l g hg
    exact ⟨fun h => ⟨0, rfl, h⟩, fun ⟨q, hq, h⟩ => by cases hq; exact h⟩
  | cons c cs ih =>
    intro l g hg
    unfold W
    rw [S_pos (fun ps => W_nonneg (fun q => hg _))]
    constructor
    · rintro ⟨ps, hw, h⟩
      obtain ⟨q, hq, h2⟩ := (ih (fun q => hg _)).mp h
      exact ⟨_, ⟨ps, q, hw, hq, rfl⟩, h2⟩
    · rintro ⟨q, ⟨ps, q', hw, hq, rfl⟩, h2⟩
      exact ⟨ps, hw, (ih (fun q => hg _)).mpr ⟨q', hq, h2⟩⟩

open Classical in
theorem Len_iff {l cols : List ℕ} {q : ℝ} : Len l cols q ↔ 0 < W l cols (fun x => if x = q then 1 else 0) := by
  rw [W_pos (fun x => by by_cases h : x = q <;> simp [h])]
  constructor
  · intro h; exact ⟨q, h, by simp⟩
  · rintro ⟨x, h1, h2⟩
    by_cases h : x = q
    · rwa [h] at h1
    · simp [h] at h2

theorem Len_perm {l l' cols : List ℕ} {q : ℝ} (h : List.Perm l l') : Len l cols q ↔ Len l' cols q := by
  rw [Len_iff, Len_iff, W_perm _ h]

theorem Len_nonzero {l cols : List ℕ} {q : ℝ} : Len (nonzero l) cols q ↔ Len l cols q := by
  rw [Len_iff, Len_iff, W_nonzero]

theorem lmult_zero {l : List ℕ} (h : l.sum = 0) : lmult 0 l = 0 := by
  unfold lmult
  have : (l.map lf).sum = 0 := by
    refine List.sum_eq_zero (fun x hx => ?_)
    obtain ⟨a, ha, rfl⟩ := List.mem_map.mp hx
    have : a ≤ l.sum := List.single_le_sum (fun _ _ => Nat.zero_le _) a ha
    rw [show a = 0 by omega, lf_zero]
  rw [this, lf_zero, sub_zero]

/-- The multinomial coefficients of all the tables with the same totals add up to
the multinomial coefficient of the row totals. -/
theorem W_total {cols : List ℕ} : ∀ {l : List ℕ}, l.sum = cols.sum →
    W l cols Real.exp = Real.exp (lmult l.sum l) := by
  induction cols with
  | nil =>
    intro l h
    rw [List.sum_nil] at h
    unfold W
    rw [h, lmult_zero h]
  | cons c cs ih =>
    intro l h
    rw [List.sum_cons] at h
    rw [← S_lmult h]
    unfold W
    refine S_congr (fun ps hp => ?_)
    have h1 : (ps.map Prod.snd).sum = cs.sum := by have := hp.props.2.1; omega
    rw [← h1, ← ih h1, ← W_mul]
    exact W_congr (fun q _ => Real.exp_add _ _)

end Apop.Fisher
