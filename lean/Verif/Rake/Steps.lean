import Verif.Rake.Model
import Mathlib.Analysis.SpecialFunctions.Log.Basic
import Mathlib.Analysis.Real.Sqrt
import Mathlib.Algebra.BigOperators.Fin
import Mathlib.Algebra.Order.BigOperators.Group.Finset
import Mathlib.Tactic.Linarith
import Mathlib.Tactic.Positivity
import Mathlib.Tactic.FieldSimp
import Mathlib.Tactic.Ring

/-! # C91: raking. Lemmas about single steps -/

namespace Apop.Rake
open Finset

/-- The weights of a block summed. -/
noncomputable def S (nt : Note) (w : ℕ → ℝ) : ℝ := (nt.elmts.map w).sum

theorem S_eq (nt : Note) (h : nt.elmts.Nodup) (w : ℕ → ℝ) : S nt w = ∑ m ∈ nt.elmts.toFinset, w m := (List.sum_toFinset w h).symm

/-- The weights with a block scaled to its total. -/
noncomputable def step (nt : Note) (w : ℕ → ℝ) : ℕ → ℝ := fun m => if m ∈ nt.elmts then w m * (nt.total / S nt w) else w m

theorem scaleFold (r : ℝ) : ∀ (l : List ℕ), l.Nodup → ∀ (w : ℕ → ℝ) (o : ℝ),
    l.foldl (scaleOne r) (w, o) = (fun m => if m ∈ l then w m * r else w m, o + (l.map w).sum * r) := by
  intro l
  induction l with
  | nil => intro _ w o; simp
  | cons e l ih =>
    intro hn w o
    obtain ⟨h1, h2⟩ := List.nodup_cons.1 hn
    rw [List.foldl_cons, scaleOne, ih h2]
    refine Prod.ext ?_ ?_
    · funext m
      by_cases hm : m = e
      · subst hm; simp [h1]
      · simp [hm]
    · have : l.map (Function.update w e (w e * r)) = l.map w := by
        refine List.map_congr_left fun m hm => ?_
        rw [Function.update_of_ne]
        rintro rfl; exact h1 hm
      simp only [this, List.map_cons, List.sum_cons]
      ring

theorem scaling_eq (nt : Note) (h : nt.elmts.Nodup) (s : St) (hS : S nt s.w ≠ 0) : scaling nt s = ⟨step nt s.w, max |S nt s.w - nt.total| s.dev⟩ := by
  unfold scaling
  have hS' : ¬ (nt.elmts.map s.w).sum = 0 := hS
  simp only [if_neg hS', scaleFold _ _ h]
  congr 2
  congr 1
  have : (nt.elmts.map s.w).sum * (nt.total / (nt.elmts.map s.w).sum) = nt.total := by field_simp
  rw [zero_add, this]; rfl

theorem scaling_zero (nt : Note) (s : St) (hS : S nt s.w = 0) : scaling nt s = s := by
  unfold scaling
  exact if_pos hS

/-- What one combination does. -/
theorem oneSet_cases (first : Bool) (nt : Note) (h : nt.elmts.Nodup) (s : St) :
    (oneSet first s nt = s ∧ (S nt s.w = 0 ∨ (first = false ∧ nt.total = 0))) ∨
    (S nt s.w ≠ 0 ∧ oneSet first s nt = ⟨step nt s.w, max |S nt s.w - nt.total| s.dev⟩) := by
  unfold oneSet
  by_cases he : nt.elmts = []
  · left; exact ⟨if_pos he, Or.inl (by simp [S, he])⟩
  rw [if_neg he]
  by_cases hf : first = false ∧ nt.total = 0
  · left; exact ⟨if_pos hf, Or.inr hf⟩
  rw [if_neg hf]
  by_cases hS : S nt s.w = 0
  · left; exact ⟨scaling_zero nt s hS, Or.inl hS⟩
  · right; exact ⟨hS, scaling_eq nt h s hS⟩

theorem S_step (nt : Note) (w : ℕ → ℝ) (hS : S nt w ≠ 0) : S nt (step nt w) = nt.total := by
  have e : nt.elmts.map (step nt w) = nt.elmts.map fun m => w m * (nt.total / S nt w) := by
    refine List.map_congr_left fun m hm => ?_
    simp [step, hm]
  unfold S at hS ⊢
  rw [e, List.sum_map_mul_right]
  show S nt w * (nt.total / S nt w) = nt.total
  have : S nt w ≠ 0 := hS
  field_simp

theorem S_nonneg (nt : Note) (w : ℕ → ℝ) (hw : ∀ m, 0 ≤ w m) : 0 ≤ S nt w := by
  unfold S
  refine List.sum_nonneg ?_
  simp only [List.mem_map]
  rintro _ ⟨m, _, rfl⟩
  exact hw m

theorem S_zero (nt : Note) (h : nt.elmts.Nodup) (w : ℕ → ℝ) (hw : ∀ m, 0 ≤ w m) (hS : S nt w = 0) : ∀ m ∈ nt.elmts, w m = 0 := by
  rw [S_eq nt h, Finset.sum_eq_zero_iff_of_nonneg (fun m _ => hw m)] at hS
  intro m hm
  exact hS m (by simpa using hm)

theorem step_nonneg (nt : Note) (ht : 0 ≤ nt.total) (w : ℕ → ℝ) (hw : ∀ m, 0 ≤ w m) : ∀ m, 0 ≤ step nt w m := by
  intro m
  unfold step
  split
  · exact mul_nonneg (hw m) (div_nonneg ht (S_nonneg nt w hw))
  · exact hw m

theorem oneSet_nonneg (first : Bool) (nt : Note) (h : nt.elmts.Nodup) (ht : 0 ≤ nt.total) (s : St) (hw : ∀ m, 0 ≤ s.w m) : ∀ m, 0 ≤ (oneSet first s nt).w m := by
  rcases oneSet_cases first nt h s with ⟨e, _⟩ | ⟨_, e⟩ <;> rw [e]
  · exact hw
  · exact step_nonneg nt ht s.w hw

theorem oneSet_zero (first : Bool) (nt : Note) (h : nt.elmts.Nodup) (s : St) (m : ℕ) (hm : s.w m = 0) : (oneSet first s nt).w m = 0 := by
  rcases oneSet_cases first nt h s with ⟨e, _⟩ | ⟨_, e⟩ <;> rw [e]
  · exact hm
  · simp [step, hm]

theorem oneSet_other (first : Bool) (nt : Note) (h : nt.elmts.Nodup) (s : St) (m : ℕ) (hm : m ∉ nt.elmts) : (oneSet first s nt).w m = s.w m := by
  rcases oneSet_cases first nt h s with ⟨e, _⟩ | ⟨_, e⟩ <;> rw [e]
  simp [step, hm]

theorem oneSet_dev (first : Bool) (nt : Note) (h : nt.elmts.Nodup) (s : St) : s.dev ≤ (oneSet first s nt).dev := by
  rcases oneSet_cases first nt h s with ⟨e, _⟩ | ⟨_, e⟩ <;> rw [e]
  exact le_max_right _ _

/-- The blocks of a contrast. -/
structure Good (n : ℕ) (nts : List Note) : Prop where
  nodup : ∀ nt ∈ nts, nt.elmts.Nodup
  lt : ∀ nt ∈ nts, ∀ m ∈ nt.elmts, m < n
  nonneg : ∀ nt ∈ nts, 0 ≤ nt.total
  disj : nts.Pairwise fun a b => a.elmts.Disjoint b.elmts

theorem Good.tail {n : ℕ} {nt : Note} {nts : List Note} (g : Good n (nt :: nts)) : Good n nts :=
  ⟨fun a h => g.nodup a (List.mem_cons_of_mem _ h), fun a h => g.lt a (List.mem_cons_of_mem _ h), fun a h => g.nonneg a (List.mem_cons_of_mem _ h), (List.pairwise_cons.1 g.disj).2⟩

theorem sweep_nonneg {n : ℕ} (first : Bool) : ∀ (nts : List Note), Good n nts → ∀ s : St, (∀ m, 0 ≤ s.w m) → ∀ m, 0 ≤ (sweep first nts s).w m := by
  intro nts
  induction nts with
  | nil => intro _ s h; exact h
  | cons nt nts ih =>
    intro g s h
    exact ih g.tail _ (oneSet_nonneg first nt (g.nodup nt (by simp)) (g.nonneg nt (by simp)) s h)

theorem sweep_zero {n : ℕ} (first : Bool) : ∀ (nts : List Note), Good n nts → ∀ (s : St) (m : ℕ), s.w m = 0 → (sweep first nts s).w m = 0 := by
  intro nts
  induction nts with
  | nil => intro _ s m h; exact h
  | cons nt nts ih =>
    intro g s m h
    exact ih g.tail _ m (oneSet_zero first nt (g.nodup nt (by simp)) s m h)

theorem sweep_other {n : ℕ} (first : Bool) : ∀ (nts : List Note), Good n nts → ∀ (s : St) (m : ℕ), (∀ nt ∈ nts, m ∉ nt.elmts) → (sweep first nts s).w m = s.w m := by
  intro nts
  induction nts with
  | nil => intro _ s m _; rfl
  | cons nt nts ih =>
    intro g s m h
    have := ih g.tail (oneSet first s nt) m (fun a ha => h a (List.mem_cons_of_mem _ ha))
    rw [← oneSet_other first nt (g.nodup nt (by simp)) s m (h nt (by simp))]
    exact this

theorem sweep_dev {n : ℕ} (first : Bool) : ∀ (nts : List Note), Good n nts → ∀ s : St, s.dev ≤ (sweep first nts s).dev := by
  intro nts
  induction nts with
  | nil => intro _ s; exact le_rfl
  | cons nt nts ih =>
    intro g s
    exact (oneSet_dev first nt (g.nodup nt (by simp)) s).trans (ih g.tail _)

/-- After a sweep every block has its total, or is zero. -/
theorem sweep_margins {n : ℕ} (first : Bool) : ∀ (nts : List Note), Good n nts → ∀ s : St, (∀ m, 0 ≤ s.w m) →
    (first = false → ∀ nt ∈ nts, nt.total = 0 → ∀ m ∈ nt.elmts, s.w m = 0) →
    ∀ nt ∈ nts, S nt (sweep first nts s).w = nt.total ∨ ((∀ m ∈ nt.elmts, s.w m = 0) ∧ ∀ m ∈ nt.elmts, (sweep first nts s).w m = 0) := by
  intro nts
  induction nts with
  | nil => intro _ s _ _ nt h; simp at h
  | cons a nts ih =>
    intro g s hw hz nt hnt
    have ha := g.nodup a (by simp)
    obtain ⟨hd, _⟩ := List.pairwise_cons.1 g.disj
    have hw' := oneSet_nonneg first a ha (g.nonneg a (by simp)) s hw
    rcases List.mem_cons.1 hnt with rfl | hmem
    · have keep : ∀ m ∈ nt.elmts, (sweep first (nt :: nts) s).w m = (oneSet first s nt).w m := fun m hm =>
        sweep_other first nts g.tail (oneSet first s nt) m (fun b hb hbm => hd b hb hm hbm)
      have hSk : S nt (sweep first (nt :: nts) s).w = S nt (oneSet first s nt).w := by
        unfold S
        rw [List.map_congr_left keep]
      rcases oneSet_cases first nt ha s with ⟨e, h0⟩ | ⟨hS, e⟩
      · right
        have z : ∀ m ∈ nt.elmts, s.w m = 0 := by
          rcases h0 with h0 | ⟨hf, ht⟩
          · exact S_zero nt ha s.w hw h0
          · exact hz hf nt (by simp) ht
        exact ⟨z, fun m hm => by rw [keep m hm, e]; exact z m hm⟩
      · left
        rw [hSk, e]
        exact S_step nt s.w hS
    · have same : ∀ m ∈ nt.elmts, (oneSet first s a).w m = s.w m := fun m hm => oneSet_other first a ha s m (fun h => hd nt hmem h hm)
      rcases ih g.tail (oneSet first s a) hw' (fun hf b hb ht m hm => by
          rw [oneSet_other first a ha s m (fun h => hd b hb h hm)]
          exact hz hf b (List.mem_cons_of_mem _ hb) ht m hm) nt hmem with h | ⟨h1, h2⟩
      · exact Or.inl h
      · exact Or.inr ⟨fun m hm => by rw [← same m hm]; exact h1 m hm, h2⟩

end Apop.Rake
