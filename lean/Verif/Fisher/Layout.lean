import Verif.Fisher.PValue

/-! # The workspace of the exact test -/

namespace Apop.Fisher

/-- Every block of doubles starts at an even int. -/
def Aligned : ℤ → List (ℤ × Bool) → Prop
  | _, [] => True
  | p, (n, d) :: rs => (d = true → p % 2 = 0) ∧ Aligned (iwork p n d).2 rs

theorem areas_cons (p n : ℤ) (d : Bool) (rs : List (ℤ × Bool)) :
    areas p ((n, d) :: rs) = ⟨(iwork p n d).1, if d then 2 * n else n⟩ :: areas (iwork p n d).2 rs := rfl

theorem aligned_cons (p n : ℤ) (d : Bool) (rs : List (ℤ × Bool)) :
    Aligned p ((n, d) :: rs) ↔ (d = true → p % 2 = 0) ∧ Aligned (iwork p n d).2 rs := Iff.rfl

theorem areas_ok : ∀ (rs : List (ℤ × Bool)) (p : ℤ), Aligned p rs → (∀ x ∈ rs, 0 ≤ x.1) →
    (∀ b ∈ areas p rs, p ≤ b.start ∧ 0 ≤ b.size ∧ b.start + b.size ≤ p + used rs)
    ∧ (areas p rs).Pairwise (fun a b => a.start + a.size ≤ b.start) := by
  intro rs
  induction rs with
  | nil => intro p _ _; exact ⟨fun b hb => (by cases hb), List.Pairwise.nil⟩
  | cons x rs ih =>
    obtain ⟨n, d⟩ := x
    intro p ha hn
    obtain ⟨h1, h2⟩ := ha
    have hn0 : 0 ≤ n := hn (n, d) (by simp)
    have hs : (iwork p n d).1 = p ∧ (iwork p n d).2 = p + (if d then 2 * n else n) := by
      unfold iwork
      cases d with
      | true => simp [h1 rfl]
      | false => simp
    obtain ⟨i1, i2⟩ := ih (iwork p n d).2 h2 (fun x hx => hn x (List.mem_cons_of_mem _ hx))
    have hsz : 0 ≤ (if d then 2 * n else n) := by cases d <;> simp <;> omega
    have hu : used ((n, d) :: rs) = (if d then 2 * n else n) + used rs := by simp [used]
    have hur : 0 ≤ used rs := by
      unfold used
      refine List.sum_nonneg (fun y hy => ?_)
      obtain ⟨z, hz, rfl⟩ := List.mem_map.mp hy
      have := hn z (List.mem_cons_of_mem _ hz)
      cases z.2 <;> simp <;> omega
    rw [areas_cons]
    rw [hs.2] at i1 i2 ⊢
    rw [hs.1]
    refine ⟨fun b hb => ?_, List.pairwise_cons.mpr ⟨fun b hb => (i1 b hb).1, i2⟩⟩
    rcases List.mem_cons.mp hb with rfl | hb
    · exact ⟨le_refl _, hsz, by rw [hu]; simp only []; linarith⟩
    · have := i1 b hb
      exact ⟨by linarith, this.2.1, by rw [hu]; linarith⟩

/-- What the fixed blocks take. -/
def fixedUsed (nrow ncol : ℕ) (ntot : ℤ) : ℤ :=
  2 * (ntot + 1) + 3 * max nrow ncol + 2 * min nrow ncol
    + max (5 * (nrow + ncol + 1) + 2 * ((nrow + ncol + 1) * max nrow ncol) : ℤ) (7 * max nrow ncol + 800)
    + 2 * max (max nrow ncol + 401 : ℤ) (nrow + ncol + 1)

theorem used_fixed (nrow ncol : ℕ) (ntot : ℤ) : used (fixedReq nrow ncol ntot) = fixedUsed nrow ncol ntot := by
  simp [used, fixedReq, fixedUsed]
  ring

theorem used_append (a b : List (ℤ × Bool)) : used (a ++ b) = used a + used b := by simp [used]

theorem used_hash (k : ℤ) : used (hashReq k) = 318 * k := by simp [used, hashReq]; ring

theorem ldkey_iff (nrow ncol : ℕ) (ntot : ℤ) : 1 ≤ ldkeyOf nrow ncol ntot ↔ fixedUsed nrow ncol ntot + 636 ≤ 200000 := by
  unfold ldkeyOf
  rw [used_fixed]
  generalize fixedUsed nrow ncol ntot = u
  by_cases h : 0 ≤ 200000 - u
  · rw [Int.tdiv_eq_ediv_of_nonneg h]; omega
  · have : Int.tdiv (200000 - u) 318 ≤ 0 := by
      have h1 : Int.tdiv (200000 - u) 318 = -(Int.tdiv (-(200000 - u)) 318) := by rw [Int.neg_tdiv]; omega
      have h2 : 0 ≤ Int.tdiv (-(200000 - u)) 318 := Int.tdiv_nonneg (by omega) (by omega)
      omega
    omega

theorem ldkey_fits {nrow ncol : ℕ} {ntot : ℤ} (h : 1 ≤ ldkeyOf nrow ncol ntot) :
    fixedUsed nrow ncol ntot + 318 * ldkeyOf nrow ncol ntot ≤ 200000 := by
  have h1 := (ldkey_iff nrow ncol ntot).mp h
  unfold ldkeyOf
  rw [used_fixed, Int.tdiv_eq_ediv_of_nonneg (by omega)]
  omega

theorem areas_append : ∀ (a b : List (ℤ × Bool)) (p : ℤ), areas p (a ++ b) = areas p a ++ areas (p + used a) b := by
  intro a
  induction a with
  | nil => intro b p; simp [areas, used]
  | cons x a ih =>
    obtain ⟨n, d⟩ := x
    intro b p
    rw [List.cons_append]
    rw [areas_cons, areas_cons, ih, List.cons_append]
    have : (iwork p n d).2 + used a = p + used ((n, d) :: a) := by
      unfold iwork used
      cases d <;> simp <;> ring
    rw [this]

theorem aligned_append : ∀ (a b : List (ℤ × Bool)) (p : ℤ), Aligned p (a ++ b) ↔ Aligned p a ∧ Aligned (p + used a) b := by
  intro a
  induction a with
  | nil => intro b p; simp [Aligned, used]
  | cons x a ih =>
    obtain ⟨n, d⟩ := x
    intro b p
    rw [List.cons_append]
    rw [aligned_cons, aligned_cons, ih, and_assoc]
    have : (iwork p n d).2 + used a = p + used ((n, d) :: a) := by
      unfold iwork used
      cases d <;> simp <;> ring
    rw [this]

theorem aligned_fixed (nrow ncol : ℕ) (ntot : ℤ) : Aligned 0 (fixedReq nrow ncol ntot) ↔ fixedUsed nrow ncol ntot % 2 = 0 := by
  unfold fixedReq fixedUsed
  simp only [Aligned, iwork, if_true, Bool.false_eq_true, if_false, false_implies, true_and, and_true, forall_const]
  push_cast
  generalize max (5 * ((nrow : ℤ) + ncol + 1) + 2 * (((nrow : ℤ) + ncol + 1) * max (nrow : ℤ) ncol)) (7 * max (nrow : ℤ) ncol + 800) = A
  generalize max (max (nrow : ℤ) ncol + 401) ((nrow : ℤ) + ncol + 1) = B
  generalize max (nrow : ℤ) ncol = x
  generalize min (nrow : ℤ) ncol = y
  rw [true_and]
  constructor <;> intro h <;> omega

theorem aligned_hash (u k : ℤ) (h : u % 2 = 0) : Aligned u (hashReq k) := by
  unfold hashReq
  simp only [Aligned, iwork, if_true, Bool.false_eq_true, if_false, false_implies, true_and, and_true, forall_const]
  omega

/-- **C186.** The work arrays of the exact test have room and do not overlap exactly
when the fixed ones take up at most 199364 ints, and an even number of them. -/
theorem C186_room (nrow ncol : ℕ) (ntot : ℤ) (hn : 0 ≤ ntot) :
    RoomOK nrow ncol ntot ↔ fixedUsed nrow ncol ntot + 636 ≤ 200000 ∧ fixedUsed nrow ncol ntot % 2 = 0 := by
  unfold RoomOK
  rw [ldkey_iff]
  constructor
  · rintro ⟨h1, _, h3⟩
    refine ⟨h1, ?_⟩
    by_contra hodd
    have hl : layout nrow ncol ntot = areas 0 (fixedReq nrow ncol ntot)
        ++ areas (fixedUsed nrow ncol ntot) (hashReq (ldkeyOf nrow ncol ntot)) := by
      unfold layout; rw [areas_append, used_fixed, zero_add]
    rw [hl, List.pairwise_append] at h3
    have hk := (ldkey_iff nrow ncol ntot).mpr h1
    have hA : ∃ b ∈ areas 0 (fixedReq nrow ncol ntot), b.start + b.size = fixedUsed nrow ncol ntot + 1 ∧ 401 ≤ b.size := by
      refine ⟨⟨fixedUsed nrow ncol ntot + 1 - 2 * max (max nrow ncol + 401 : ℤ) (nrow + ncol + 1), 2 * max (max nrow ncol + 401 : ℤ) (nrow + ncol + 1)⟩, ?_, ?_, ?_⟩
      · rw [show fixedReq nrow ncol ntot = (fixedReq nrow ncol ntot).take 7 ++ [(max (max nrow ncol + 401 : ℤ) (nrow + ncol + 1), true)] by
          simp [fixedReq]]
        rw [areas_append]
        refine List.mem_append.mpr (Or.inr ?_)
        have hu : used ((fixedReq nrow ncol ntot).take 7) = fixedUsed nrow ncol ntot - 2 * max (max nrow ncol + 401 : ℤ) (nrow + ncol + 1) := by
          simp [used, fixedReq, fixedUsed]; ring
        rw [hu, zero_add]
        simp only [areas, List.mem_singleton, iwork, if_true]
        rw [if_neg (by omega)]
        congr 1; ring
      · simp
      · simp only []; omega
    obtain ⟨b, hb, hb2, hb3⟩ := hA
    have hB : (⟨fixedUsed nrow ncol ntot, 2 * ldkeyOf nrow ncol ntot⟩ : Block)
        ∈ areas (fixedUsed nrow ncol ntot) (hashReq (ldkeyOf nrow ncol ntot)) := by
      simp [hashReq, areas, iwork]
    have := h3.2.2 b hb _ hB
    simp only [] at this
    omega
  · rintro ⟨h1, h2⟩
    have hk := (ldkey_iff nrow ncol ntot).mpr h1
    have hfit := ldkey_fits hk
    have hal : Aligned 0 (fixedReq nrow ncol ntot ++ hashReq (ldkeyOf nrow ncol ntot)) := by
      rw [aligned_append, aligned_fixed, zero_add, used_fixed]
      exact ⟨h2, aligned_hash _ _ h2⟩
    obtain ⟨h3, h4⟩ := areas_ok _ 0 hal (by
      intro x hx
      rcases List.mem_append.mp hx with hx | hx
      · unfold fixedReq at hx
        simp only [List.mem_cons, List.not_mem_nil, or_false] at hx
        rcases hx with rfl | rfl | rfl | rfl | rfl | rfl | rfl | rfl <;> simp only [] <;> omega
      · unfold hashReq at hx
        simp only [List.mem_cons, List.not_mem_nil, or_false] at hx
        rcases hx with rfl | rfl | rfl | rfl | rfl | rfl | rfl | rfl <;> simp only [] <;> omega)
    refine ⟨h1, fun b hb => ?_, h4.imp (fun h => Or.inl h)⟩
    have := h3 b hb
    rw [used_append, used_fixed, used_hash] at this
    exact ⟨this.1, this.2.1, by omega⟩

/-- **C186.** In terms of the table: the arrays do not overlap if the shorter side is
odd or the table is not too large. -/
theorem C186_parity (nrow ncol : ℕ) (ntot : ℤ) : fixedUsed nrow ncol ntot % 2 = 0 ↔
    min nrow ncol % 2 = 1 ∨ (nrow + ncol + 1) * (5 + 2 * max nrow ncol) ≤ 7 * max nrow ncol + 800 := by
  have hxy : max nrow ncol + min nrow ncol = nrow + ncol := by omega
  have hk : (nrow + ncol + 1) * (5 + 2 * max nrow ncol) = 5 * (nrow + ncol + 1) + 2 * ((nrow + ncol + 1) * max nrow ncol) := by ring
  have hc : fixedUsed nrow ncol ntot = 2 * (ntot + 1) + ((3 * max nrow ncol + 2 * min nrow ncol
      + max (5 * (nrow + ncol + 1) + 2 * ((nrow + ncol + 1) * max nrow ncol)) (7 * max nrow ncol + 800)
      + 2 * max (max nrow ncol + 401) (nrow + ncol + 1) : ℕ) : ℤ) := by
    unfold fixedUsed; push_cast; ring
  rw [hc, hk]
  generalize (nrow + ncol + 1) * max nrow ncol = q
  generalize max (max nrow ncol + 401) (nrow + ncol + 1) = B
  generalize max nrow ncol = x at *
  generalize min nrow ncol = y at *
  rcases le_or_gt (5 * (nrow + ncol + 1) + 2 * q) (7 * x + 800) with h | h
  · rw [max_eq_right h]
    constructor
    · intro _; exact Or.inr h
    · intro _; omega
  · rw [max_eq_left h.le]
    constructor
    · intro h2; left; omega
    · rintro (h2 | h2)
      · omega
      · omega

/-- **C186.** Tables of up to 13 rows and 13 columns with a total of up to 97000 have
room. -/
theorem C186_room_small {nrow ncol : ℕ} {ntot : ℤ} (hr : nrow ≤ 13) (hc : ncol ≤ 13) (h0 : 0 ≤ ntot) (hn : ntot ≤ 97000) :
    RoomOK nrow ncol ntot := by
  have hb : (nrow + ncol + 1) * (5 + 2 * max nrow ncol) ≤ 7 * max nrow ncol + 800 := by
    refine le_trans (Nat.mul_le_mul_right _ (show nrow + ncol + 1 ≤ 27 by omega)) ?_
    omega
  rw [C186_room _ _ _ h0, C186_parity]
  refine ⟨?_, Or.inr hb⟩
  unfold fixedUsed
  have hb' : (5 * (nrow + ncol + 1) + 2 * ((nrow + ncol + 1) * max nrow ncol) : ℤ) ≤ 7 * max nrow ncol + 800 := by
    have : ((nrow + ncol + 1) * (5 + 2 * max nrow ncol) : ℤ) ≤ 7 * max nrow ncol + 800 := by exact_mod_cast hb
    push_cast at this ⊢
    linarith
  rw [max_eq_right hb']
  omega

/-- **C186 (finding).** With 2 rows and 19 columns, the last double of the work array
`rwk` and the first int of the hash table `key` are in the same place, for every
total. -/
theorem C186_overlap_refuted (ntot : ℤ) (h0 : 0 ≤ ntot) : ¬ RoomOK 2 19 ntot := by
  rw [C186_room _ _ _ h0, C186_parity]
  simp

/-- **C186 (finding).** A total of 100000 does not fit, whatever the size of the table. -/
theorem C186_total_refuted (nrow ncol : ℕ) (ntot : ℤ) (h : 100000 ≤ ntot) : ¬ RoomOK nrow ncol ntot := by
  rw [C186_room _ _ _ (by omega)]
  rintro ⟨h1, _⟩
  unfold fixedUsed at h1
  have : (0 : ℤ) ≤ max (5 * (nrow + ncol + 1) + 2 * ((nrow + ncol + 1) * max nrow ncol) : ℤ) (7 * max nrow ncol + 800) := by
    refine le_trans ?_ (le_max_right _ _)
    omega
  have h2 : (0 : ℤ) ≤ max (max nrow ncol + 401 : ℤ) (nrow + ncol + 1) := by omega
  generalize max (5 * (nrow + ncol + 1) + 2 * ((nrow + ncol + 1) * max nrow ncol) : ℤ) (7 * max nrow ncol + 800) = A at *
  generalize max (max nrow ncol + 401 : ℤ) (nrow + ncol + 1) = B at *
  omega

/-- A table of 3 rows and 4 columns with a total of 50. -/
example : RoomOK 3 4 50 := C186_room_small (by decide) (by decide) (by decide) (by decide)

end Apop.Fisher
