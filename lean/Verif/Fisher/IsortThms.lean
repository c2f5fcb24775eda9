import Verif.Fisher.Isort
import Mathlib.Logic.Equiv.Basic
import Mathlib.Data.List.Perm.Basic
import Mathlib.Data.List.FinRange

/-! # `isort` sorts: partition and main loop -/

namespace Apop.Fisher.Isort

/-- `b` is `a` with the positions `lo..hi` rearranged. -/
def Re (lo hi : ℕ) (a b : ℕ → ℤ) : Prop :=
  ∃ σ : Equiv.Perm ℕ, (∀ k, (k < lo ∨ hi < k) → σ k = k) ∧ b = a ∘ σ

theorem Re.refl (lo hi a) : Re lo hi a a := ⟨Equiv.refl _, fun _ _ => rfl, rfl⟩

theorem Re.trans {lo hi a b c} (h : Re lo hi a b) (h' : Re lo hi b c) : Re lo hi a c := by
  obtain ⟨σ, h1, rfl⟩ := h
  obtain ⟨τ, h2, rfl⟩ := h'
  refine ⟨τ.trans σ, fun k hk => ?_, rfl⟩
  simp [h2 k hk, h1 k hk]

theorem Re.mono {lo hi lo' hi' a b} (h : Re lo hi a b) (h1 : lo' ≤ lo) (h2 : hi ≤ hi') :
    Re lo' hi' a b := by
  obtain ⟨σ, hs, rfl⟩ := h
  exact ⟨σ, fun k hk => hs k (by omega), rfl⟩

theorem Re.out {lo hi a b} (h : Re lo hi a b) {k} (hk : k < lo ∨ hi < k) : b k = a k := by
  obtain ⟨σ, hs, rfl⟩ := h
  simp [hs k hk]

/-- Every value in the rearranged range comes from the range. -/
theorem Re.src {lo hi a b} (h : Re lo hi a b) {k} (h1 : lo ≤ k) (h2 : k ≤ hi) :
    ∃ k', lo ≤ k' ∧ k' ≤ hi ∧ b k = a k' := by
  obtain ⟨σ, hs, rfl⟩ := h
  refine ⟨σ k, ?_, ?_, rfl⟩
  · by_contra hc
    have := hs (σ k) (Or.inl (by omega))
    have := σ.injective this
    omega
  · by_contra hc
    have := hs (σ k) (Or.inr (by omega))
    have := σ.injective this
    omega

theorem Re.swap {lo hi i j} (a) (h1 : lo ≤ i) (h2 : i ≤ hi) (h3 : lo ≤ j) (h4 : j ≤ hi) :
    Re lo hi a (swap a i j) := by
  refine ⟨Equiv.swap i j, fun k hk => Equiv.swap_apply_of_ne_of_ne (by omega) (by omega), ?_⟩
  funext k
  simp only [Isort.swap, Function.comp, Equiv.swap_apply_def]
  split
  · rfl
  · split <;> rfl

theorem swap_ne {a i j k} (h : k ≠ i) (h' : k ≠ j) : swap a i j k = a k := by
  unfold Isort.swap; rw [if_neg h, if_neg h']

theorem swap_l {a i j} : swap a i j i = a j := by unfold Isort.swap; rw [if_pos rfl]

theorem swap_r {a i j} : swap a i j j = a i := by
  unfold Isort.swap
  by_cases h : j = i
  · rw [if_pos h, h]
  · rw [if_neg h, if_pos rfl]

theorem inb_true {n i} (h1 : 1 ≤ i) (h2 : i ≤ n) : inb n i = true := by simp [inb, h1, h2]

theorem up_spec {n a key} (hk : 1 ≤ key) (hkn : key ≤ n) : ∀ {i j}, i < j → j ≤ n + 1 →
    ∃ i', up n a key i j = some i' ∧ i < i' ∧ i' ≤ j ∧ (∀ k, i < k → k < i' → a k < a key) ∧
      (i' < j → a key ≤ a i') := by
  intro i j
  induction h : j - i using Nat.strong_induction_on generalizing i with
  | _ d ih =>
    intro hij hj
    rw [up]
    by_cases h1 : i + 1 < j
    · rw [if_pos h1, inb_true hk hkn, inb_true (by omega : 1 ≤ i + 1) (by omega)]
      by_cases h2 : a key > a (i + 1)
      · obtain ⟨i', e, p1, p2, p3, p4⟩ := ih (j - (i + 1)) (by omega) rfl h1 hj
        refine ⟨i', by simp [h2, e], by omega, p2, fun k hk1 hk2 => ?_, p4⟩
        by_cases h3 : k = i + 1
        · subst h3; exact h2
        · exact p3 k (by omega) hk2
      · refine ⟨i + 1, by simp [h2], by omega, by omega, fun k _ _ => by omega, fun _ => by omega⟩
    · rw [if_neg h1]
      exact ⟨i + 1, rfl, by omega, by omega, fun k _ _ => by omega, fun h => by omega⟩

theorem down_spec {n a key} (hk : 1 ≤ key) (hkn : key ≤ n) : ∀ {i j}, 1 ≤ i → i < j → j ≤ n + 1 →
    a i ≤ a key →
    ∃ j', down n a key j = some j' ∧ i ≤ j' ∧ j' < j ∧ (∀ k, j' < k → k < j → a key < a k) ∧
      a j' ≤ a key := by
  intro i j
  induction j with
  | zero => intro _ h; omega
  | succ j ih =>
    intro hi hij hj ha
    rw [down, inb_true hk hkn, inb_true (by omega : 1 ≤ j) (by omega)]
    by_cases h2 : a j > a key
    · have hne : i ≠ j := by rintro rfl; omega
      obtain ⟨j', e, p1, p2, p3, p4⟩ := ih hi (by omega) (by omega) ha
      refine ⟨j', by simp [h2, e], p1, by omega, fun k hk1 hk2 => ?_, p4⟩
      by_cases h3 : k = j
      · subst h3; exact h2
      · exact p3 k hk1 (by omega)
    · exact ⟨j, by simp [h2], by omega, by omega, fun k _ _ => by omega, by omega⟩

theorem part_eq (n a key i j) : part n a key i j =
    (up n a key i j).bind (fun i' => (down n a key j).bind (fun j' =>
      if i' < j' then
        if inb n i' && inb n j' then part n (swap a i' j') key i' j' else none
      else some (a, j'))) := by
  rw [part]
  split
  · rename_i h; simp [h]
  · rename_i h
    simp only [h, Option.bind_some]
    split
    · rename_i h'; simp [h']
    · rename_i h'; simp [h']

/-- The partition. -/
theorem part_spec {n key hi} (hk : 1 ≤ key) (hhi : hi ≤ n) : ∀ {a i j}, key ≤ i → i < j → j ≤ hi + 1 →
    (∀ k, key < k → k ≤ i → a k ≤ a key) → (∀ k, j ≤ k → k ≤ hi → a key ≤ a k) →
    ∃ a' p, part n a key i j = some (a', p) ∧ key ≤ p ∧ p ≤ hi ∧ Re (key + 1) hi a a' ∧
      (∀ k, key < k → k ≤ p → a' k ≤ a' key) ∧ (∀ k, p < k → k ≤ hi → a' key ≤ a' k) := by
  intro a i j
  induction h : j - i using Nat.strong_induction_on generalizing a i j with
  | _ d ih =>
    intro h1 h2 h3 hl hu
    have hai : a i ≤ a key := by
      by_cases e : i = key
      · rw [e]
      · exact hl i (by omega) le_rfl
    obtain ⟨i', ei, i1, i2, i3, i4⟩ := up_spec (a := a) hk (by omega : key ≤ n) h2 (by omega : j ≤ n + 1)
    obtain ⟨j', ej, j1, j2, j3, j4⟩ := down_spec (a := a) hk (by omega : key ≤ n) (by omega : 1 ≤ i) h2
      (by omega : j ≤ n + 1) hai
    rw [part_eq, ei, ej]
    simp only [Option.bind_some]
    by_cases hc : i' < j'
    · rw [if_pos hc, inb_true (by omega) (by omega), inb_true (by omega) (by omega)]
      have sk : swap a i' j' key = a key :=
        swap_ne (by omega) (by omega)
      have si : swap a i' j' i' = a j' := swap_l
      have sj : swap a i' j' j' = a i' := swap_r
      have so : ∀ k, k ≠ i' → k ≠ j' → swap a i' j' k = a k := fun k x y => swap_ne x y
      obtain ⟨a', p, e, p1, p2, p3, p4, p5⟩ := ih (j' - i') (by omega) (a := swap a i' j') rfl (by omega) hc
        (by omega) (by
          intro k k1 k2
          rw [sk]
          by_cases e : k = i'
          · rw [e, si]; exact j4
          · rw [so k e (by omega)]
            by_cases e' : k ≤ i
            · exact hl k k1 e'
            · exact (i3 k (by omega) (by omega)).le) (by
          intro k k1 k2
          rw [sk]
          by_cases e : k = j'
          · rw [e, sj]; exact i4 (by omega)
          · rw [so k (by omega) e]
            by_cases e' : j ≤ k
            · exact hu k e' k2
            · exact (j3 k (by omega) (by omega)).le)
      exact ⟨a', p, by simp [e], p1, p2,
        (Re.swap a (by omega) (by omega) (by omega) (by omega)).trans p3, p4, p5⟩
    · rw [if_neg hc]
      refine ⟨a, j', rfl, by omega, by omega, Re.refl _ _ _, fun k k1 k2 => ?_, fun k k1 k2 => ?_⟩
      · by_cases e : k ≤ i
        · exact hl k k1 e
        · by_cases e' : k = i'
          · have : k = j' := by omega
            rw [this]; exact j4
          · exact (i3 k (by omega) (by omega)).le
      · by_cases e' : j ≤ k
        · exact hu k e' k2
        · exact (j3 k (by omega) (by omega)).le

/-- What the loop does with a finished segment: take the next one. -/
def next (n fuel : ℕ) (stk : List (ℕ × ℕ)) (a : ℕ → ℤ) : Out (ℕ → ℤ) :=
  match stk with
  | [] => .ok a
  | (il, iu) :: stk' => run n fuel il iu stk' a

theorem run_ge {n fuel i j stk a} (h : i ≥ j) : run n (fuel + 1) i j stk a = next n fuel stk a := by
  rcases stk with _ | ⟨⟨x, y⟩, t⟩
  · unfold run; rw [if_pos h]; rfl
  · conv_lhs => unfold run
    rw [if_pos h]; rfl

/-- The step at `L10` with a segment of at least two elements. -/
def step (n fuel i j : ℕ) (stk : List (ℕ × ℕ)) : Option ((ℕ → ℤ) × ℕ) → Out (ℕ → ℤ)
  | none => .ub
  | some (a', p) =>
    if inb n i && inb n p then
      if stk.length + 1 < 11 then
        if p - i < j - p then run n fuel i (p - 1) ((p + 1, j) :: stk) (swap a' i p)
        else run n fuel (p + 1) j ((i, p - 1) :: stk) (swap a' i p)
      else .err (swap a' i p)
    else .ub

theorem run_lt {n fuel i j stk a} (h : ¬ i ≥ j) :
    run n (fuel + 1) i j stk a = step n fuel i j stk (part n a i i (j + 1)) := by
  rcases stk with _ | ⟨⟨x, y⟩, t⟩
  · conv_lhs => unfold run
    rw [if_neg h]; rfl
  · conv_lhs => unfold run
    rw [if_neg h]; rfl

/-- One segment split at `p`. -/
theorem seg_split {n i j a} (hi : 1 ≤ i) (hij : i < j) (hj : j ≤ n) :
    ∃ a' p, part n a i i (j + 1) = some (a', p) ∧ i ≤ p ∧ p ≤ j ∧ Re i j a (swap a' i p) ∧
      (∀ k, i ≤ k → k < p → swap a' i p k ≤ swap a' i p p) ∧
      (∀ k, p < k → k ≤ j → swap a' i p p ≤ swap a' i p k) := by
  obtain ⟨a', p, e, p1, p2, p3, p4, p5⟩ := part_spec (a := a) (i := i) (j := j + 1) hi hj le_rfl
    (by omega) le_rfl (fun k _ _ => by omega) (fun k _ _ => by omega)
  have sp : swap a' i p p = a' i := swap_r
  refine ⟨a', p, e, p1, p2, (p3.mono (by omega) le_rfl).trans
    (Re.swap a' le_rfl (by omega) p1 p2), fun k k1 k2 => ?_, fun k k1 k2 => ?_⟩
  · rw [sp]
    by_cases ek : k = i
    · subst ek
      have : swap a' k p k = a' p := swap_l
      rw [this]
      exact p4 p k2 le_rfl
    · have : swap a' i p k = a' k := swap_ne ek (by omega)
      rw [this]
      exact p4 k (by omega) (by omega)
  · have : swap a' i p k = a' k := swap_ne (by omega) (by omega)
    rw [sp, this]
    exact p5 k k1 k2

theorem sorted_glue {i p j : ℕ} {b c d : ℕ → ℤ} (h1 : i ≤ p) (h2 : p ≤ j)
    (hl : ∀ k, i ≤ k → k < p → b k ≤ b p) (hu : ∀ k, p < k → k ≤ j → b p ≤ b k)
    (r1 : Re i (p - 1) b c) (r2 : Re (p + 1) j c d) (hp : 1 ≤ p)
    (s1 : ∀ k, i ≤ k → k < p - 1 → d k ≤ d (k + 1))
    (s2 : ∀ k, p + 1 ≤ k → k < j → d k ≤ d (k + 1)) :
    ∀ k, i ≤ k → k < j → d k ≤ d (k + 1) := by
  have dp : d p = b p := by
    rw [r2.out (Or.inl (by omega)), r1.out (Or.inr (by omega))]
  intro k k1 k2
  by_cases c1 : k < p - 1
  · exact s1 k k1 c1
  by_cases c2 : p + 1 ≤ k
  · exact s2 k c2 k2
  by_cases c3 : k = p
  · subst c3
    obtain ⟨k', q1, q2, q3⟩ := r2.src (k := k + 1) le_rfl k2
    rw [dp, q3, r1.out (Or.inr (by omega))]
    exact hu k' (by omega) q2
  · have c4 : k + 1 = p := by omega
    rw [c4, dp, r2.out (Or.inl (by omega))]
    obtain ⟨k', q1, q2, q3⟩ := r1.src (k := k) k1 (by omega)
    rw [q3]
    exact hl k' q1 (by omega)

theorem sorted_glue' {i p j : ℕ} {b c d : ℕ → ℤ} (h1 : i ≤ p) (h2 : p ≤ j)
    (hl : ∀ k, i ≤ k → k < p → b k ≤ b p) (hu : ∀ k, p < k → k ≤ j → b p ≤ b k)
    (r2 : Re (p + 1) j b c) (r1 : Re i (p - 1) c d) (hp : 1 ≤ p)
    (s1 : ∀ k, i ≤ k → k < p - 1 → d k ≤ d (k + 1))
    (s2 : ∀ k, p + 1 ≤ k → k < j → d k ≤ d (k + 1)) :
    ∀ k, i ≤ k → k < j → d k ≤ d (k + 1) := by
  have dp : d p = b p := by
    rw [r1.out (Or.inr (by omega)), r2.out (Or.inl (by omega))]
  intro k k1 k2
  by_cases c1 : k < p - 1
  · exact s1 k k1 c1
  by_cases c2 : p + 1 ≤ k
  · exact s2 k c2 k2
  by_cases c3 : k = p
  · subst c3
    rw [dp, r1.out (Or.inr (by omega))]
    obtain ⟨k', q1, q2, q3⟩ := r2.src (k := k + 1) le_rfl k2
    rw [q3]
    exact hu k' (by omega) q2
  · have c4 : k + 1 = p := by omega
    rw [c4, dp]
    obtain ⟨k', q1, q2, q3⟩ := r1.src (k := k) k1 (by omega)
    rw [q3, r2.out (Or.inl (by omega))]
    exact hl k' q1 (by omega)

/-- A segment of at most `3 * 2 ^ d - 2` elements needs at most `d` more places on the
stack. -/
theorem run_seg (n : ℕ) : ∀ (s i j : ℕ) (stk : List (ℕ × ℕ)) (a : ℕ → ℤ) (d : ℕ), j + 1 - i ≤ s →
    1 ≤ i → j ≤ n → stk.length + d = 10 → j + 1 - i + 2 ≤ 3 * 2 ^ d →
    ∃ f a', (∀ fuel, run n (fuel + f) i j stk a = next n fuel stk a') ∧ f ≤ 2 * (j + 1 - i) + 1 ∧
      Re i j a a' ∧ (∀ k, i ≤ k → k < j → a' k ≤ a' (k + 1)) := by
  intro s
  induction s with
  | zero =>
    intro i j stk a d hs h1 h2 _ _
    refine ⟨1, a, fun fuel => ?_, by omega, Re.refl _ _ _, fun k _ _ => by omega⟩
    exact run_ge (by omega)
  | succ s ih =>
    intro i j stk a d hs h1 h2 h3 h4
    by_cases hij : i ≥ j
    · refine ⟨1, a, fun fuel => ?_, by omega, Re.refl _ _ _, fun k _ _ => by omega⟩
      exact run_ge hij
    · obtain ⟨a', p, e, p1, p2, p3, p4, p5⟩ := seg_split (a := a) h1 (by omega : i < j) h2
      obtain ⟨d', rfl⟩ : ∃ d', d = d' + 1 := by
        refine ⟨d - 1, ?_⟩
        rcases d with _ | d
        · simp at h4; omega
        · rfl
      have hpow : 2 ^ (d' + 1) = 2 * 2 ^ d' := by ring
      by_cases hlt : p - i < j - p
      · obtain ⟨f1, b, r1, g1, q1, s1⟩ := ih i (p - 1) ((p + 1, j) :: stk) (swap a' i p) d' (by omega) h1
          (by omega) (by simp; omega) (by omega)
        obtain ⟨f2, c, r2, g2, q2, s2⟩ := ih (p + 1) j stk b (d' + 1) (by omega) (by omega) h2 h3 (by omega)
        refine ⟨f2 + f1 + 1, c, fun fuel => ?_, by omega,
          p3.trans ((q1.mono le_rfl (by omega)).trans (q2.mono (by omega) le_rfl)),
          sorted_glue p1 p2 p4 p5 q1 q2 (by omega) ?_ s2⟩
        · rw [show fuel + (f2 + f1 + 1) = (fuel + f2 + f1) + 1 by omega, run_lt (by omega), e]
          simp only [step, inb_true h1 (by omega : i ≤ n), inb_true (by omega : 1 ≤ p) (by omega : p ≤ n),
            Bool.and_self, if_true, if_pos (by omega : stk.length + 1 < 11), if_pos hlt]
          rw [r1, next, r2]
        · intro k k1 k2
          rw [q2.out (Or.inl (by omega)), q2.out (Or.inl (by omega))]
          exact s1 k k1 k2
      · obtain ⟨f1, b, r1, g1, q1, s1⟩ := ih (p + 1) j ((i, p - 1) :: stk) (swap a' i p) d' (by omega)
          (by omega) h2 (by simp; omega) (by omega)
        obtain ⟨f2, c, r2, g2, q2, s2⟩ := ih i (p - 1) stk b (d' + 1) (by omega) h1 (by omega) h3 (by omega)
        refine ⟨f2 + f1 + 1, c, fun fuel => ?_, by omega,
          p3.trans ((q1.mono (by omega) le_rfl).trans (q2.mono le_rfl (by omega))),
          sorted_glue' p1 p2 p4 p5 q1 q2 (by omega) s2 ?_⟩
        · rw [show fuel + (f2 + f1 + 1) = (fuel + f2 + f1) + 1 by omega, run_lt (by omega), e]
          simp only [step, inb_true h1 (by omega : i ≤ n), inb_true (by omega : 1 ≤ p) (by omega : p ≤ n),
            Bool.and_self, if_true, if_pos (by omega : stk.length + 1 < 11), if_neg hlt]
          rw [r1, next, r2]
        · intro k k1 k2
          rw [q2.out (Or.inr (by omega)), q2.out (Or.inr (by omega))]
          exact s1 k k1 k2

end Apop.Fisher.Isort
