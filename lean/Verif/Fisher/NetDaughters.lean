import Verif.Fisher.NetBasics
import Mathlib.Data.List.GetD

/-! # Summing over the daughters is summing over all columns -/

namespace Apop.Fisher
open Finset

/-- All ways to take `n` units out of `l`. -/
def waysL : List ℕ → ℕ → List (List (ℕ × ℕ))
  | [], n => if n = 0 then [[]] else []
  | a :: l, n => (List.range (a + 1)).flatMap (fun x =>
      if x ≤ n then (waysL l (n - x)).map (fun ps => (x, a - x) :: ps) else [])

theorem list_range_sum (g : ℕ → ℝ) (n : ℕ) : ((List.range n).map g).sum = ∑ x ∈ range n, g x := by
  induction n with
  | zero => simp
  | succ n ih => rw [List.range_succ, List.map_append, List.sum_append, ih, Finset.sum_range_succ]; simp

theorem sum_flatMap {α β : Type} (f : α → List β) (g : β → ℝ) (l : List α) :
    ((l.flatMap f).map g).sum = (l.map (fun x => ((f x).map g).sum)).sum := by
  induction l with
  | nil => simp
  | cons a l ih => simp [List.flatMap_cons, ih]

theorem S_eq_waysL : ∀ (l : List ℕ) (n : ℕ) (F : List (ℕ × ℕ) → ℝ), S l n F = ((waysL l n).map F).sum := by
  intro l
  induction l with
  | nil => intro n F; by_cases hn : n = 0 <;> simp [S, waysL, hn]
  | cons a l ih =>
    intro n F
    unfold S waysL
    rw [sum_flatMap, list_range_sum]
    refine Finset.sum_congr rfl (fun x _ => ?_)
    by_cases hn : x ≤ n
    · rw [if_pos hn, if_pos hn, ih, List.map_map]; rfl
    · rw [if_neg hn, if_neg hn]; rfl

theorem mem_waysL : ∀ {l : List ℕ} {n : ℕ} {ps : List (ℕ × ℕ)}, ps ∈ waysL l n ↔ Way l n ps := by
  intro l
  induction l with
  | nil =>
    intro n ps
    by_cases hn : n = 0
    · subst hn
      simp only [waysL, if_true, List.mem_singleton]
      exact ⟨fun h => h ▸ Way.nil, fun h => by cases h; rfl⟩
    · simp only [waysL, if_neg hn, List.not_mem_nil, false_iff]
      intro h; cases h; exact hn rfl
  | cons a l ih =>
    intro n ps
    unfold waysL
    simp only [List.mem_flatMap, List.mem_range]
    constructor
    · rintro ⟨x, hx, h⟩
      by_cases hn : x ≤ n
      · rw [if_pos hn] at h
        obtain ⟨qs, hq, rfl⟩ := List.mem_map.mp h
        exact Way.cons x (by omega) hn (ih.mp hq)
      · rw [if_neg hn] at h; cases h
    · intro h
      cases h with
      | cons x hx hn h =>
        refine ⟨x, by omega, ?_⟩
        rw [if_pos hn]
        exact List.mem_map.mpr ⟨_, ih.mpr h, rfl⟩

theorem nodup_waysL : ∀ (l : List ℕ) (n : ℕ), (waysL l n).Nodup := by
  intro l
  induction l with
  | nil => intro n; by_cases hn : n = 0 <;> simp [waysL, hn]
  | cons a l ih =>
    intro n
    unfold waysL
    rw [List.nodup_flatMap]
    refine ⟨fun x _ => ?_, ?_⟩
    · by_cases hn : x ≤ n
      · rw [if_pos hn]
        exact (ih _).map (fun p q h => (List.cons.inj h).2)
      · rw [if_neg hn]; exact List.nodup_nil
    · refine (List.nodup_range).imp (fun {x y} hxy => ?_)
      intro ps h1 h2
      by_cases hx : x ≤ n
      · by_cases hy : y ≤ n
        · simp only [if_pos hx, if_pos hy] at h1 h2
          obtain ⟨p, _, rfl⟩ := List.mem_map.mp h1
          obtain ⟨q, _, e⟩ := List.mem_map.mp h2
          have := (List.cons.inj e).1
          exact hxy (Prod.mk.inj this).1.symm
        · simp only [if_neg hy] at h2; cases h2
      · simp only [if_neg hx] at h1; cases h1

/-- How many each row gives and keeps. -/
def pairs (l d : List ℕ) : List (ℕ × ℕ) := List.zipWith (fun a x => (x, a - x)) l d

/-- `d` is a column that fits beside the row totals `l`, with total `n`. -/
def Col (l : List ℕ) (n : ℕ) (d : List ℕ) : Prop := List.Forall₂ (fun a x => x ≤ a) l d ∧ d.sum = n

theorem pairs_fst {l d : List ℕ} (h : l.length = d.length) : (pairs l d).map Prod.fst = d := by
  induction l generalizing d with
  | nil => cases d with
    | nil => rfl
    | cons => simp at h
  | cons a l ih => cases d with
    | nil => simp at h
    | cons x d =>
      have := ih (d := d) (by simpa using h)
      unfold pairs at *
      simp [this]

theorem pairs_snd (l d : List ℕ) : (pairs l d).map Prod.snd = leave l d := by
  unfold pairs leave
  induction l generalizing d with
  | nil => rfl
  | cons a l ih => cases d with
    | nil => rfl
    | cons x d => simp [ih]

theorem way_iff {l : List ℕ} {n : ℕ} {ps : List (ℕ × ℕ)} : Way l n ps ↔ ∃ d, Col l n d ∧ ps = pairs l d := by
  constructor
  · intro h
    induction h with
    | nil => exact ⟨[], ⟨List.Forall₂.nil, rfl⟩, rfl⟩
    | cons x hx hn _ ih =>
      obtain ⟨d, ⟨h1, h2⟩, rfl⟩ := ih
      exact ⟨x :: d, ⟨List.Forall₂.cons hx h1, by rw [List.sum_cons, h2]; omega⟩, rfl⟩
  · rintro ⟨d, ⟨h1, h2⟩, rfl⟩
    induction h1 generalizing n with
    | nil => rw [List.sum_nil] at h2; subst h2; exact Way.nil
    | @cons a x l d hax _ ih =>
      rw [List.sum_cons] at h2
      exact Way.cons x hax (by omega) (ih (by omega))

theorem arr_succ (l : List ℕ) (i : ℕ) : arr l (i + 1) = l.getD i 0 := by
  unfold arr; rw [if_neg (by omega), Nat.add_sub_cancel]

theorem toList_length (r : ℕ) (v : ℕ → ℕ) : (toList r v).length = r := by simp [toList]

theorem sum_toList (r : ℕ) (v : ℕ → ℕ) : (toList r v).sum = low v r := by
  unfold toList
  induction r with
  | zero => rfl
  | succ r ih => rw [List.range_succ, List.map_append, List.sum_append, ih, low_succ]; simp

theorem forall2_iff {l d : List ℕ} : List.Forall₂ (fun a x => x ≤ a) l d ↔
    l.length = d.length ∧ ∀ i, d.getD i 0 ≤ l.getD i 0 := by
  constructor
  · intro h
    induction h with
    | nil => exact ⟨rfl, fun i => by simp⟩
    | cons h _ ih =>
      refine ⟨by simpa using ih.1, fun i => ?_⟩
      cases i with
      | zero => simpa using h
      | succ i => simpa using ih.2 i
  · rintro ⟨h1, h2⟩
    induction l generalizing d with
    | nil => cases d with
      | nil => exact List.Forall₂.nil
      | cons => simp at h1
    | cons a l ih => cases d with
      | nil => simp at h1
      | cons x d =>
        exact List.Forall₂.cons (by simpa using h2 0) (ih (by simpa using h1) (fun i => by simpa using h2 (i + 1)))

theorem getD_toList (r : ℕ) (v : ℕ → ℕ) (i : ℕ) : (toList r v).getD i 0 = if i < r then v (i + 1) else 0 := by
  unfold toList
  by_cases h : i < r
  · rw [if_pos h, List.getD_eq_getElem _ _ (by simpa using h)]; simp
  · rw [if_neg h, List.getD_eq_default _ _ (by simpa using h)]

theorem fits_col {l : List ℕ} {n : ℕ} {v : ℕ → ℕ} (h : Fits (arr l) l.length n v) : Col l n (toList l.length v) := by
  refine ⟨forall2_iff.mpr ⟨(toList_length _ _).symm, fun i => ?_⟩, by rw [sum_toList]; exact h.tot⟩
  rw [getD_toList]
  by_cases hi : i < l.length
  · rw [if_pos hi, ← arr_succ]; exact h.le (i + 1) (by omega) (by omega)
  · rw [if_neg hi]; exact Nat.zero_le _

theorem toList_arr (d : List ℕ) : toList d.length (arr d) = d := by
  refine List.ext_getElem (by simp [toList]) (fun i h1 h2 => ?_)
  simp [toList, arr_succ, List.getElem?_eq_getElem h2]

theorem col_fits {l d : List ℕ} {n : ℕ} (h : Col l n d) : Fits (arr l) l.length n (arr d) := by
  obtain ⟨h1, h2⟩ := h
  obtain ⟨hl, hd⟩ := forall2_iff.mp h1
  refine ⟨fun i a b => ?_, fun i hi => ?_, ?_⟩
  · obtain ⟨j, rfl⟩ : ∃ j, i = j + 1 := ⟨i - 1, by omega⟩
    rw [arr_succ, arr_succ]; exact hd j
  · rcases hi with rfl | hi
    · rfl
    · obtain ⟨j, rfl⟩ : ∃ j, i = j + 1 := ⟨i - 1, by omega⟩
      rw [arr_succ, List.getD_eq_default _ _ (by omega)]
  · rw [← sum_toList, hl, toList_arr]; exact h2

theorem low_arr (l : List ℕ) : low (arr l) l.length = l.sum := by
  rw [← sum_toList, toList_arr]

/-- **The daughters.** For row totals with something in the last row, and a column
total below the grand total, the daughters are all the columns that fit, each once. -/
theorem daughters_spec {l : List ℕ} {n : ℕ} (hl : 0 < arr l l.length) (hn : n < l.sum) :
    ∃ ds, daughters l n = .ok ds ∧ ds.Nodup ∧ ∀ d, d ∈ ds ↔ Col l n d := by
  have hlen : 1 ≤ l.length := by
    cases l with
    | nil => simp [arr] at hl
    | cons => simp
  have hc := columns_eq (imax := arr l) (r := l.length) (n := n) hlen hl (by rw [low_arr]; exact hn)
    (length_enum (arr l) l.length n)
  refine ⟨(enum (arr l) l.length n).map (toList l.length), by unfold daughters; rw [hc], ?_, ?_⟩
  · refine List.Nodup.map_on (fun a ha b hb hab => ?_) (nodup_enum _ _ _)
    have fa := mem_enum.mp ha
    have fb := mem_enum.mp hb
    funext i
    by_cases hi : i = 0 ∨ l.length < i
    · rw [fa.out i hi, fb.out i hi]
    · obtain ⟨j, rfl⟩ : ∃ j, i = j + 1 := ⟨i - 1, by omega⟩
      have := congrArg (fun t => List.getD t j 0) hab
      simp only [getD_toList] at this
      rwa [if_pos (by omega), if_pos (by omega)] at this
  · intro d
    rw [List.mem_map]
    constructor
    · rintro ⟨v, hv, rfl⟩; exact fits_col (mem_enum.mp hv)
    · intro h
      refine ⟨arr d, mem_enum.mpr (col_fits h), ?_⟩
      rw [(forall2_iff.mp h.1).1, toList_arr]

/-- A sum over the daughters is the sum over all columns. -/
theorem daughters_sum {l : List ℕ} {n : ℕ} {ds : List (List ℕ)} (hnd : ds.Nodup) (hm : ∀ d, d ∈ ds ↔ Col l n d)
    (F : List (ℕ × ℕ) → ℝ) : (ds.map (fun d => F (pairs l d))).sum = S l n F := by
  rw [S_eq_waysL]
  have hp : List.Perm (ds.map (pairs l)) (waysL l n) := by
    refine (List.perm_ext_iff_of_nodup (List.Nodup.map_on (fun a ha b hb hab => ?_) hnd) (nodup_waysL l n)).mpr (fun ps => ?_)
    · have h1 := pairs_fst (forall2_iff.mp ((hm a).mp ha).1).1
      have h2 := pairs_fst (forall2_iff.mp ((hm b).mp hb).1).1
      rw [← h1, ← h2, hab]
    · rw [mem_waysL, way_iff, List.mem_map]
      constructor
      · rintro ⟨d, hd, rfl⟩; exact ⟨d, (hm d).mp hd, rfl⟩
      · rintro ⟨d, hd, rfl⟩; exact ⟨d, (hm d).mpr hd, rfl⟩
  have := (hp.map F).sum_eq
  rw [List.map_map] at this
  exact this

end Apop.Fisher
