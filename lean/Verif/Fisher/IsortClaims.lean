import Verif.Fisher.IsortThms
import Verif.Fisher.F3
import Verif.Fisher.Network
import Mathlib.Tactic.NormNum

/-!
# C196: `isort`

Up to 3070 elements the vector is sorted, with at most ten pending segments and every
access inside the vector; 3071 elements can be one segment too many.
-/

namespace Apop.Fisher.Isort

theorem unvec_vec (l : List ℤ) : unvec l.length (vec l) = l := by
  apply List.ext_getElem
  · simp [unvec]
  · intro i h1 h2
    simp [unvec, vec, h2]

theorem unvec_perm {n a b} (h : Re 1 n a b) : (unvec n b).Perm (unvec n a) := by
  obtain ⟨σ, hs, rfl⟩ := h
  have hr : ∀ k, 1 ≤ k → k ≤ n → 1 ≤ σ k ∧ σ k ≤ n := by
    intro k h1 h2
    constructor
    · by_contra hc
      have := hs (σ k) (Or.inl (by omega))
      have := σ.injective this
      omega
    · by_contra hc
      have := hs (σ k) (Or.inr (by omega))
      have := σ.injective this
      omega
  have e : unvec n (a ∘ σ) = ((List.range n).map (fun k => σ (k + 1) - 1)).map (fun k => a (k + 1)) := by
    unfold unvec
    rw [List.map_map]
    apply List.map_congr_left
    intro k hk
    have := hr (k + 1) (by omega) (by have := List.mem_range.1 hk; omega)
    simp only [Function.comp]
    rw [Nat.sub_add_cancel this.1]
  rw [e]
  apply List.Perm.map
  have hnd : ((List.range n).map (fun k => σ (k + 1) - 1)).Nodup := by
    refine List.Nodup.map_on ?_ List.nodup_range
    intro x hx y hy hxy
    have h1 := hr (x + 1) (by omega) (by have := List.mem_range.1 hx; omega)
    have h2 := hr (y + 1) (by omega) (by have := List.mem_range.1 hy; omega)
    have : σ (x + 1) = σ (y + 1) := by omega
    have := σ.injective this
    omega
  refine List.Perm.symm (List.perm_of_nodup_nodup_toFinset_eq List.nodup_range hnd ?_)
  symm
  apply Finset.eq_of_subset_of_card_le
  · intro x hx
    simp only [List.mem_toFinset, List.mem_map, List.mem_range] at hx ⊢
    obtain ⟨k, hk, rfl⟩ := hx
    have := hr (k + 1) (by omega) (by omega)
    omega
  · rw [List.toFinset_card_of_nodup hnd, List.toFinset_card_of_nodup List.nodup_range]
    simp

theorem unvec_sorted {n} {a : ℕ → ℤ} (h : ∀ k, 1 ≤ k → k < n → a k ≤ a (k + 1)) :
    (unvec n a).Pairwise (· ≤ ·) := by
  have mono : ∀ d k, 1 ≤ k → k + d ≤ n → a k ≤ a (k + d) := by
    intro d
    induction d with
    | zero => intro k _ _; exact le_rfl
    | succ d ih =>
      intro k h1 h2
      exact (ih k h1 (by omega)).trans (h (k + d) (by omega) (by omega))
  rw [List.pairwise_iff_getElem]
  intro i j hi hj hij
  simp only [unvec, List.length_map, List.length_range] at hi hj
  simp only [unvec, List.getElem_map, List.getElem_range]
  have := mono (j - i) (i + 1) (by omega) (by omega)
  rwa [show i + 1 + (j - i) = j + 1 by omega] at this

/-- **C196**: sorting a vector of at most 3070 elements ends, after at most `2 * n + 2`
segments, with the same elements in ascending order: no access outside the vector and no
error. -/
theorem C196_isort_sorts (l : List ℤ) (h : l.length ≤ 3070) (fuel : ℕ) (hf : 2 * l.length + 2 ≤ fuel) :
    ∃ l', isort fuel l = .ok l' ∧ l'.Perm l ∧ l'.Pairwise (· ≤ ·) := by
  obtain ⟨f, a', r, g, q, s⟩ := run_seg l.length l.length 1 l.length [] (vec l) 10 (by omega) le_rfl le_rfl
    rfl (by norm_num; omega)
  refine ⟨unvec l.length a', ?_, ?_, unvec_sorted s⟩
  · have := r (fuel - f)
    rw [Nat.sub_add_cancel (by omega)] at this
    rw [isort, this]
    rfl
  · exact (unvec_perm q).trans (by rw [unvec_vec])

/-- The descending vector 3, 2, 1 and a vector with equal elements are sorted. -/
example : ∃ l', isort 30 [3, 2, 1, 2, 3] = .ok l' ∧ l'.Perm [3, 2, 1, 2, 3] ∧ l'.Pairwise (· ≤ ·) :=
  C196_isort_sorts _ (by decide) 30 (by decide)

theorem isort_eq (l : List ℤ) (h : l.length ≤ 3070) (fuel : ℕ) (hf : 2 * l.length + 2 ≤ fuel) :
    isort fuel l = .ok (l.insertionSort (· ≤ ·)) := by
  obtain ⟨l', e, p, s⟩ := C196_isort_sorts l h fuel hf
  rw [e]
  congr 1
  exact List.Perm.eq_of_pairwise (fun a b _ _ x y => le_antisymm x y) s (List.pairwise_insertionSort _ _)
    (p.trans (List.perm_insertionSort _ _).symm)

/-- **C196**: the calls in `f3xact` (line 972) are what the model of `f3xact` uses. -/
theorem C196_f3xact_sort (l : List ℤ) (h : l.length ≤ 3070) (fuel : ℕ) (hf : 2 * l.length + 2 ≤ fuel) :
    isort fuel l = .ok (F3.sortZ l) := isort_eq l h fuel hf

theorem map_sortUp (l : List ℕ) :
    (l.map (fun x : ℕ => (x : ℤ))).insertionSort (· ≤ ·) = (sortUp l).map (fun x : ℕ => (x : ℤ)) := by
  refine List.Perm.eq_of_pairwise (fun a b _ _ x y => le_antisymm x y)
    (List.pairwise_insertionSort _ _) ?_ ((List.perm_insertionSort _ _).trans
      ((List.perm_insertionSort (· ≤ ·) l).symm.map _))
  rw [List.pairwise_map]
  exact (List.pairwise_insertionSort (· ≤ ·) l).imp (fun h => by exact_mod_cast h)

/-- **C196**: the calls in `f2xact` (lines 412, 413, 573) are what the model of the
network uses. -/
theorem C196_f2xact_sort (l : List ℕ) (h : l.length ≤ 3070) (fuel : ℕ) (hf : 2 * l.length + 2 ≤ fuel) :
    isort fuel (l.map (fun x : ℕ => (x : ℤ))) = .ok ((sortUp l).map (fun x : ℕ => (x : ℤ))) := by
  rw [isort_eq _ (by simpa using h) fuel (by simpa using hf), map_sortUp]

example : isort 8 (([2, 0, 1] : List ℕ).map (fun x : ℕ => (x : ℤ))) = .ok ((sortUp [2, 0, 1]).map (fun x : ℕ => (x : ℤ))) :=
  C196_f2xact_sort [2, 0, 1] (by decide) 8 (by decide)

/-! ### One segment too many -/

/-- The size of a segment that needs `d + 1` places. -/
def sz : ℕ → ℕ
  | 0 => 2
  | d + 1 => 2 * sz d + 1

/-- From `i` on the vector splits in the middle, and the right half does so again, `d`
times. -/
def Bad : ℕ → ℕ → (ℕ → ℤ) → Prop
  | 0, _, _ => True
  | d + 1, i, a => (∀ k, i < k → k ≤ i + sz d → a k < a i) ∧
      (∀ k, i + sz d < k → k ≤ i + 2 * sz d → a i < a k) ∧ Bad d (i + sz d + 1) a

theorem sz_pos (d) : 2 ≤ sz d := by induction d <;> simp [sz]; omega

theorem Bad.congr : ∀ {d i a b}, Bad d i a → (∀ k, i ≤ k → k < i + sz d → b k = a k) → Bad d i b := by
  intro d
  induction d with
  | zero => intros; trivial
  | succ d ih =>
    intro i a b h hb
    obtain ⟨h1, h2, h3⟩ := h
    simp only [sz] at hb
    refine ⟨fun k k1 k2 => ?_, fun k k1 k2 => ?_, ih h3 (fun k k1 k2 => hb k (by omega) (by omega))⟩
    · rw [hb k (by omega) (by omega), hb i le_rfl (by omega)]; exact h1 k k1 k2
    · rw [hb k (by omega) (by omega), hb i le_rfl (by omega)]; exact h2 k k1 k2

theorem part_done {n i j q} {a : ℕ → ℤ} (h1 : 1 ≤ i) (hq : i ≤ q) (hqj : q ≤ j) (hj : j ≤ n)
    (hl : ∀ k, i < k → k ≤ q → a k < a i) (hu : ∀ k, q < k → k ≤ j → a i < a k) :
    part n a i i (j + 1) = some (a, q) := by
  obtain ⟨i', ei, i1, i2, i3, i4⟩ := up_spec (a := a) h1 (by omega : i ≤ n) (by omega : i < j + 1) (by omega : j + 1 ≤ n + 1)
  obtain ⟨j', ej, j1, j2, j3, j4⟩ := down_spec (a := a) h1 (by omega : i ≤ n) h1 (by omega : i < j + 1)
    (by omega : j + 1 ≤ n + 1) le_rfl
  have e1 : i' = q + 1 := by
    rcases lt_trichotomy i' (q + 1) with c | c | c
    · have := i4 (by omega)
      have := hl i' i1 (by omega)
      omega
    · exact c
    · have := i3 (q + 1) (by omega) c
      have := hu (q + 1) (by omega) (by omega)
      omega
  have e2 : j' = q := by
    rcases lt_trichotomy j' q with c | c | c
    · have := j3 q c (by omega)
      by_cases hiq : q = i
      · subst hiq; omega
      · have := hl q (by omega) le_rfl
        omega
    · exact c
    · have := hu j' c (by omega)
      omega
  rw [part_eq, ei, ej, e1, e2]
  simp

theorem run_bad (n : ℕ) : ∀ (d i fuel : ℕ) (stk : List (ℕ × ℕ)) (a : ℕ → ℤ), Bad d i a → 1 ≤ i →
    i + sz d ≤ n + 1 → stk.length + d = 10 → d < fuel →
    ∃ b, run n fuel i (i + sz d - 1) stk a = .err b ∧ ∀ k, k < i → b k = a k := by
  intro d
  induction d with
  | zero =>
    intro i fuel stk a _ h1 h2 h3 h4
    obtain ⟨f, rfl⟩ : ∃ f, fuel = f + 1 := ⟨fuel - 1, by omega⟩
    simp only [sz] at h2 ⊢
    obtain ⟨a', p, e, p1, p2, p3, p4, p5⟩ := seg_split (n := n) (a := a) h1 (by omega : i < i + 2 - 1) (by omega)
    refine ⟨swap a' i p, ?_, fun k hk => p3.out (Or.inl hk)⟩
    rw [run_lt (by omega), e]
    simp only [step, inb_true h1 (by omega : i ≤ n), inb_true (by omega : 1 ≤ p) (by omega : p ≤ n),
      Bool.and_self, if_true, if_neg (by omega : ¬ stk.length + 1 < 11)]
  | succ d ih =>
    intro i fuel stk a hb h1 h2 h3 h4
    obtain ⟨f, rfl⟩ : ∃ f, fuel = f + 1 := ⟨fuel - 1, by omega⟩
    obtain ⟨b1, b2, b3⟩ := hb
    simp only [sz] at h2 ⊢
    have := sz_pos d
    have e := part_done (n := n) (a := a) (j := i + (2 * sz d + 1) - 1) (q := i + sz d) h1 (by omega) (by omega)
      (by omega) b1 (fun k k1 k2 => b2 k k1 (by omega))
    obtain ⟨b, r, hr⟩ := ih (i + sz d + 1) f ((i, i + sz d - 1) :: stk) (swap a i (i + sz d))
      (b3.congr (fun k k1 k2 => swap_ne (by omega) (by omega))) (by omega) (by omega) (by simp; omega) (by omega)
    refine ⟨b, ?_, fun k hk => ?_⟩
    · rw [run_lt (by omega), e]
      simp only [step, inb_true h1 (by omega : i ≤ n), inb_true (by omega : 1 ≤ i + sz d) (by omega : i + sz d ≤ n),
        Bool.and_self, if_true, if_pos (by omega : stk.length + 1 < 11),
        if_neg (by omega : ¬ i + sz d - i < i + (2 * sz d + 1) - 1 - (i + sz d))]
      rw [show i + (2 * sz d + 1) - 1 = i + sz d + 1 + sz d - 1 by omega]
      exact r
    · rw [hr k (by omega), swap_ne (by omega) (by omega)]

/-- A vector that splits like that: the first element, smaller ones (the first two out of
order), then larger ones with the same structure. -/
def badf : ℕ → ℕ → ℤ → ℕ → ℤ
  | 0, _, c, _ => c
  | d + 1, i, c, k => if k = i then c + 2 else if k = i + 1 then c + 1 else if k ≤ i + sz d then c
      else badf d (i + sz d + 1) (c + 3) k

theorem badf_ge : ∀ d i c k, c ≤ badf d i c k := by
  intro d
  induction d with
  | zero => intros; exact le_rfl
  | succ d ih =>
    intro i c k
    unfold badf
    have := ih (i + sz d + 1) (c + 3) k
    split
    · omega
    · split
      · omega
      · split <;> omega

theorem bad_badf : ∀ d i c, Bad d i (badf d i c) := by
  intro d
  induction d with
  | zero => intros; trivial
  | succ d ih =>
    intro i c
    have := sz_pos d
    have hi : badf (d + 1) i c i = c + 2 := by unfold badf; rw [if_pos rfl]
    refine ⟨fun k k1 k2 => ?_, fun k k1 k2 => ?_, (ih (i + sz d + 1) (c + 3)).congr (fun k k1 k2 => ?_)⟩
    · rw [hi]; unfold badf; rw [if_neg (by omega)]
      split
      · omega
      · omega
    · rw [hi]; unfold badf; rw [if_neg (by omega), if_neg (by omega), if_neg (by omega)]
      have := badf_ge d (i + sz d + 1) (c + 3) k
      omega
    · conv_lhs => unfold badf
      rw [if_neg (by omega), if_neg (by omega), if_neg (by omega)]

theorem vec_unvec {n k} {a : ℕ → ℤ} (h1 : 1 ≤ k) (h2 : k ≤ n) : vec (unvec n a) k = a k := by
  unfold vec unvec
  have h3 : k - 1 < n := by omega
  have h4 : k - 1 + 1 = k := by omega
  simp [List.getD_eq_getElem?_getD, h3, h4]

/-- **C196**: the bound is exact: there is a vector of 3071 elements on which `isort`
reports the error "This should never occur" and returns with the vector unsorted, however
long it runs. -/
theorem C196_long_vector_refuted : ∃ l : List ℤ, l.length = 3071 ∧
    ∀ fuel, 11 ≤ fuel → ∃ l', isort fuel l = .err l' ∧ ¬ l'.Pairwise (· ≤ ·) := by
  have hs : sz 10 = 3071 := by decide
  have hs9 : sz 9 = 1535 := by decide
  have hlen : (unvec 3071 (badf 10 1 0)).length = 3071 := by rw [unvec, List.length_map, List.length_range]
  refine ⟨unvec 3071 (badf 10 1 0), hlen, fun fuel hf => ?_⟩
  obtain ⟨f, rfl⟩ : ∃ f, fuel = f + 1 := ⟨fuel - 1, by omega⟩
  generalize ha : vec (unvec 3071 (badf 10 1 0)) = a
  have hab : ∀ k, 1 ≤ k → k ≤ 3071 → a k = badf 10 1 0 k := fun k h1 h2 => by rw [← ha]; exact vec_unvec h1 h2
  have hbad : Bad 10 1 a := (bad_badf 10 1 0).congr (fun k k1 k2 => hab k k1 (by omega))
  obtain ⟨b1, b2, b3⟩ := hbad
  rw [hs9] at b1 b2 b3
  have e := part_done (n := 3071) (a := a) (i := 1) (j := 3071) (q := 1536) le_rfl (by omega) (by omega) le_rfl
    b1 b2
  obtain ⟨b, r, hr⟩ := run_bad 3071 9 1537 f [(1, 1535)] (swap a 1 1536)
    (b3.congr (fun k k1 k2 => swap_ne (by omega) (by omega))) (by omega) (by omega) rfl (by omega)
  rw [hs9] at r
  refine ⟨unvec 3071 b, ?_, ?_⟩
  · rw [isort, hlen, ha, run_lt (by omega), e]
    have : step 3071 f 1 3071 [] (some (a, 1536)) = .err b := by
      simpa [step, inb] using r
    rw [this]; rfl
  · intro hp
    rw [List.pairwise_iff_getElem] at hp
    have hl : (unvec 3071 b).length = 3071 := by rw [unvec, List.length_map, List.length_range]
    have := hp 1 2 (by omega) (by omega) (by omega)
    simp only [unvec, List.getElem_map, List.getElem_range] at this
    rw [hr 2 (by omega), hr 3 (by omega), swap_ne (by omega) (by omega), swap_ne (by omega) (by omega),
      hab 2 (by omega) (by omega), hab 3 (by omega) (by omega)] at this
    unfold badf at this
    simp [hs9] at this

end Apop.Fisher.Isort
