import Verif.Fisher.Daughter

/-! # Every column that fits, in the order the generator visits them -/

namespace Apop.Fisher
open Finset

theorem low_succ (d : ℕ → ℕ) (k : ℕ) : low d (k + 1) = low d k + d (k + 1) := by
  unfold low; rw [Finset.sum_range_succ]

theorem low_zero (d : ℕ → ℕ) : low d 0 = 0 := rfl

theorem low_congr {d e : ℕ → ℕ} {k : ℕ} (h : ∀ i, 1 ≤ i → i ≤ k → d i = e i) : low d k = low e k := by
  unfold low
  refine Finset.sum_congr rfl (fun i hi => h _ (by omega) ?_)
  have := Finset.mem_range.mp hi; omega

theorem low_upd_gt (d : ℕ → ℕ) {k j x : ℕ} (h : k < j) : low (upd d j x) k = low d k :=
  low_congr (fun i _ h2 => by unfold upd; rw [if_neg (by omega)])

/-- The first column with total `n`: as much as possible in the later rows. -/
def top (imax : ℕ → ℕ) : ℕ → ℕ → (ℕ → ℕ)
  | 0, _ => fun _ => 0
  | r + 1, n => upd (top imax r (n - min n (imax (r + 1)))) (r + 1) (min n (imax (r + 1)))

/-- The columns over rows 1..r+1 with total `n` and at most `x` in row r+1, given
the lists for rows 1..r. -/
def blocks (e : ℕ → List (ℕ → ℕ)) (r n : ℕ) : ℕ → List (ℕ → ℕ)
  | 0 => (e n).map (fun v => upd v (r + 1) 0)
  | x + 1 => (e (n - (x + 1))).map (fun v => upd v (r + 1) (x + 1)) ++ blocks e r n x

/-- All columns over rows 1..r with total `n`. -/
def enum (imax : ℕ → ℕ) : ℕ → ℕ → List (ℕ → ℕ)
  | 0, n => if n = 0 then [fun _ => 0] else []
  | r + 1, n => blocks (enum imax r) r n (min n (imax (r + 1)))

/-- `v` is a column over rows 1..r with total `n` that fits. -/
structure Fits (imax : ℕ → ℕ) (r n : ℕ) (v : ℕ → ℕ) : Prop where
  le : ∀ i, 1 ≤ i → i ≤ r → v i ≤ imax i
  out : ∀ i, i = 0 ∨ r < i → v i = 0
  tot : low v r = n

theorem upd_same (v : ℕ → ℕ) (k x : ℕ) : upd v k x k = x := by simp [upd]
theorem upd_ne (v : ℕ → ℕ) {k x i : ℕ} (h : i ≠ k) : upd v k x i = v i := by simp [upd, h]
theorem upd_upd (v : ℕ → ℕ) (k x y : ℕ) : upd (upd v k x) k y = upd v k y := by
  funext i; by_cases h : i = k <;> simp [upd, h]
theorem upd_self {v : ℕ → ℕ} {k x : ℕ} (h : v k = x) : upd v k x = v := by
  funext i; by_cases h' : i = k <;> simp [upd, h', ← h]

theorem fits_upd {imax : ℕ → ℕ} {r n x : ℕ} {v : ℕ → ℕ} (hx : x ≤ imax (r + 1)) (hn : x ≤ n)
    (h : Fits imax r (n - x) v) : Fits imax (r + 1) n (upd v (r + 1) x) where
  le i h1 h2 := by
    by_cases hi : i = r + 1
    · rw [hi, upd_same]; exact hx
    · rw [upd_ne _ hi]; exact h.le i h1 (by omega)
  out i hi := by rw [upd_ne _ (by omega)]; exact h.out i (by omega)
  tot := by rw [low_succ, low_upd_gt _ (by omega), upd_same, h.tot]; omega

theorem fits_restrict {imax : ℕ → ℕ} {r n : ℕ} {v : ℕ → ℕ} (h : Fits imax (r + 1) n v) :
    Fits imax r (n - v (r + 1)) (upd v (r + 1) 0) ∧ v (r + 1) ≤ n := by
  have ht := h.tot
  rw [low_succ] at ht
  refine ⟨⟨fun i h1 h2 => ?_, fun i hi => ?_, ?_⟩, by omega⟩
  · rw [upd_ne _ (by omega)]; exact h.le i h1 (by omega)
  · by_cases h2 : i = r + 1
    · rw [h2, upd_same]
    · rw [upd_ne _ h2]; exact h.out i (by omega)
  · rw [low_upd_gt _ (by omega)]; omega

theorem mem_blocks {e : ℕ → List (ℕ → ℕ)} {r n : ℕ} {w : ℕ → ℕ} : ∀ {x : ℕ},
    w ∈ blocks e r n x ↔ ∃ y, y ≤ x ∧ ∃ v ∈ e (n - y), w = upd v (r + 1) y := by
  intro x
  induction x with
  | zero =>
    simp only [blocks, List.mem_map]
    constructor
    · rintro ⟨v, hv, rfl⟩; exact ⟨0, le_refl _, v, hv, rfl⟩
    · rintro ⟨y, hy, v, hv, rfl⟩
      obtain rfl : y = 0 := by omega
      exact ⟨v, hv, rfl⟩
  | succ x ih =>
    simp only [blocks, List.mem_append, List.mem_map, ih]
    constructor
    · rintro (⟨v, hv, rfl⟩ | ⟨y, hy, v, hv, rfl⟩)
      · exact ⟨x + 1, le_refl _, v, hv, rfl⟩
      · exact ⟨y, by omega, v, hv, rfl⟩
    · rintro ⟨y, hy, v, hv, rfl⟩
      by_cases h : y = x + 1
      · subst h; exact Or.inl ⟨v, hv, rfl⟩
      · exact Or.inr ⟨y, by omega, v, hv, rfl⟩

theorem mem_enum {imax : ℕ → ℕ} : ∀ {r n : ℕ} {v : ℕ → ℕ}, v ∈ enum imax r n ↔ Fits imax r n v := by
  intro r
  induction r with
  | zero =>
    intro n v
    by_cases hn : n = 0
    · subst hn
      simp only [enum, if_true, List.mem_singleton]
      constructor
      · rintro rfl; exact ⟨fun i h1 h2 => by omega, fun _ _ => rfl, rfl⟩
      · intro h; funext i; exact h.out i (by omega)
    · simp only [enum, if_neg hn, List.not_mem_nil, false_iff]
      intro h; exact hn h.tot.symm
  | succ r ih =>
    intro n v
    unfold enum
    rw [mem_blocks]
    constructor
    · rintro ⟨y, hy, w, hw, rfl⟩
      exact fits_upd (by omega) (by omega) (ih.mp hw)
    · intro h
      have h2 := fits_restrict h
      refine ⟨v (r + 1), ?_, _, ih.mpr h2.1, ?_⟩
      · have := h.le (r + 1) (by omega) (le_refl _); omega
      · rw [upd_upd, upd_self rfl]

theorem nodup_enum (imax : ℕ → ℕ) : ∀ r n : ℕ, (enum imax r n).Nodup := by
  intro r
  induction r with
  | zero => intro n; by_cases hn : n = 0 <;> simp [enum, hn]
  | succ r ih =>
    intro n
    unfold enum
    have inj : ∀ (m y : ℕ), ((enum imax r m).map (fun v => upd v (r + 1) y)).Nodup := by
      intro m y
      refine List.Nodup.map_on (fun a ha b hb hab => ?_) (ih m)
      have ha' := (mem_enum.mp ha).out (r + 1) (by omega)
      have hb' := (mem_enum.mp hb).out (r + 1) (by omega)
      funext i
      by_cases hi : i = r + 1
      · rw [hi, ha', hb']
      · have := congrFun hab i
        simpa [upd_ne _ hi] using this
    generalize min n (imax (r + 1)) = x
    induction x with
    | zero => exact inj _ _
    | succ x ihx =>
      unfold blocks
      refine List.Nodup.append (inj _ _) ihx ?_
      intro w h1 h2
      obtain ⟨v, _, rfl⟩ := List.mem_map.mp h1
      obtain ⟨y, hy, u, _, he⟩ := mem_blocks.mp h2
      have := congrFun he (r + 1)
      rw [upd_same, upd_same] at this
      omega

/-- The number of columns is at most the product of the numbers of values each
row allows. -/
theorem length_enum (imax : ℕ → ℕ) : ∀ r n : ℕ, (enum imax r n).length ≤ ∏ i ∈ range r, (imax (i + 1) + 1) := by
  intro r
  induction r with
  | zero => intro n; by_cases hn : n = 0 <;> simp [enum, hn]
  | succ r ih =>
    intro n
    unfold enum
    have key : ∀ x, (blocks (enum imax r) r n x).length ≤ (x + 1) * ∏ i ∈ range r, (imax (i + 1) + 1) := by
      intro x
      induction x with
      | zero => simp only [blocks, List.length_map]; have := ih n; omega
      | succ x ihx =>
        simp only [blocks, List.length_append, List.length_map]
        have := ih (n - (x + 1))
        calc _ ≤ _ + _ := Nat.add_le_add this ihx
          _ = _ := by ring
    rw [Finset.prod_range_succ, Nat.mul_comm]
    refine (key _).trans (Nat.mul_le_mul_right _ ?_)
    have := min_le_right n (imax (r + 1)); omega

end Apop.Fisher
