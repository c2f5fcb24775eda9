import Verif.Realloc.Model

/-! # C07 and C08: resizing matrices and vectors -/

namespace Apop.Realloc
variable {α : Type}

theorem memmove_ok {β : Type} {l : List β} {dst src n : Nat} (h1 : src + n ≤ l.length)
    (h2 : dst + n ≤ l.length) :
    ∃ l', memmove l dst src n = .ok l' ∧ l'.length = l.length ∧
      ∀ k, l'[k]? = if dst ≤ k ∧ k < dst + n then l[src + (k - dst)]? else l[k]? := by
  refine ⟨l.take dst ++ (l.drop src).take n ++ l.drop (dst + n), by simp [memmove, h1, h2], ?_, ?_⟩
  · simp; omega
  · intro k
    have hlen : (l.take dst).length = dst := by simp; omega
    have hlen2 : ((l.drop src).take n).length = n := by simp; omega
    by_cases hk : k < dst
    · have hn : ¬ (dst ≤ k ∧ k < dst + n) := by omega
      rw [if_neg hn, List.append_assoc, List.getElem?_append_left (by omega),
        List.getElem?_take_of_lt hk]
    · by_cases hk2 : k < dst + n
      · rw [if_pos (by omega), List.append_assoc, List.getElem?_append_right (by omega),
          List.getElem?_append_left (by omega), hlen, List.getElem?_take_of_lt (by omega),
          List.getElem?_drop]
      · rw [if_neg (by omega), List.getElem?_append_right (by simp only [List.length_append]; omega)]
        simp only [List.length_append, hlen, hlen2, List.getElem?_drop]
        congr 1; omega

theorem realloc_get (l : List (Option α)) (n k : Nat) (hk : k < n) (hl : k < l.length) :
    (realloc l n)[k]? = l[k]? := by
  unfold realloc
  rw [List.getElem?_append_left (by simp; omega), List.getElem?_take_of_lt hk]

theorem realloc_length (l : List (Option α)) (n : Nat) : (realloc l n).length = n := by
  simp [realloc]; omega

theorem mul_add_lt {i j w h : Nat} (hi : i < h) (hj : j < w) : i * w + j < h * w := by
  have : (i + 1) * w ≤ h * w := Nat.mul_le_mul_right w hi
  rw [Nat.add_mul] at this; omega

/-- Loop invariant of the narrowing pass. -/
theorem narrow_ok {β : Type} (w nw h : Nat) (hw : nw ≤ w) (k i : Nat) (mem : List β)
    (hki : i + 1 + k ≤ h) (hl : mem.length = h * w) :
    ∃ mem', narrow w nw k (i * w) (i * nw) mem = .ok mem' ∧ mem'.length = h * w ∧
      (∀ r j, i < r → r < i + 1 + k → j < nw → mem'[r * nw + j]? = mem[r * w + j]?) ∧
      (∀ x, x < (i + 1) * nw → mem'[x]? = mem[x]?) := by
  induction k generalizing i mem with
  | zero =>
    refine ⟨mem, rfl, hl, ?_, fun _ _ => rfl⟩
    intro r j h1 h2; omega
  | succ k ih =>
    have hr : (i + 1) * w + w ≤ h * w := by
      have : (i + 1 + 1) * w ≤ h * w := Nat.mul_le_mul_right w (by omega)
      rw [Nat.add_mul (i + 1)] at this; omega
    have hd : (i + 1) * nw ≤ (i + 1) * w := Nat.mul_le_mul_left _ hw
    obtain ⟨m1, e1, l1, g1⟩ := memmove_ok (l := mem) (dst := (i + 1) * nw) (src := (i + 1) * w)
      (n := nw) (by omega) (by omega)
    have eo : i * w + w = (i + 1) * w := by rw [Nat.add_mul]; omega
    have en : i * nw + nw = (i + 1) * nw := by rw [Nat.add_mul]; omega
    simp only [narrow, eo, en, e1, Res.bind_ok]
    obtain ⟨m2, e2, l2, g2, g3⟩ := ih (i + 1) m1 (by omega) (by omega)
    refine ⟨m2, e2, l2, ?_, ?_⟩
    · intro r j h1 h2 hj
      have en2 : (i + 1 + 1) * nw = (i + 1) * nw + nw := by rw [Nat.add_mul]; omega
      by_cases hri : r = i + 1
      · subst hri
        rw [g3 _ (by omega), g1, if_pos (by omega)]
        congr 1; omega
      · rw [g2 r j (by omega) (by omega) hj, g1, if_neg]
        have : (i + 1 + 1) * w ≤ r * w := Nat.mul_le_mul_right w (by omega)
        have h3 : (i + 1 + 1) * nw ≤ (i + 1 + 1) * w := Nat.mul_le_mul_left _ hw
        omega
    · intro x hx
      have en2 : (i + 1 + 1) * nw = (i + 1) * nw + nw := by rw [Nat.add_mul]; omega
      rw [g3 x (by omega), g1, if_neg (by omega)]

/-- Loop invariant of the widening pass: `i` rows (numbers 1..i) are still to be moved. -/
theorem widen_ok {β : Type} (w nw h : Nat) (hw : w ≤ nw) (i newoff : Nat) (mem : List β)
    (hi : i < h) (ho : newoff + (i + 1) * nw = h * nw) (hl : h * nw ≤ mem.length) :
    ∃ mem', widen w nw h i newoff mem = .ok mem' ∧ mem'.length = mem.length ∧
      (∀ r j, r ≤ i → j < w → mem'[r * nw + j]? = mem[r * w + j]?) ∧
      (∀ x, (i + 1) * nw ≤ x → mem'[x]? = mem[x]?) := by
  induction i generalizing newoff mem with
  | zero =>
    refine ⟨mem, rfl, rfl, ?_, fun _ _ => rfl⟩
    intro r j h1 h2
    have : r = 0 := by omega
    subst this; simp
  | succ i ih =>
    have e0 : (i + 1 + 1) * nw = (i + 1) * nw + nw := by rw [Nat.add_mul (i + 1)]; omega
    have hdst : h * nw - (newoff + nw) = (i + 1) * nw := by omega
    have hge : ¬ h * nw < newoff + nw := by omega
    have hsrc : (i + 1) * w ≤ (i + 1) * nw := Nat.mul_le_mul_left _ hw
    obtain ⟨m1, e1, l1, g1⟩ := memmove_ok (l := mem) (dst := (i + 1) * nw) (src := (i + 1) * w)
      (n := w) (by omega) (by omega)
    simp only [widen, hdst, hge, if_false, e1, Res.bind_ok]
    obtain ⟨m2, e2, l2, g2, g3⟩ := ih (newoff + nw) m1 (by omega) (by omega) (by omega)
    refine ⟨m2, e2, by omega, ?_, ?_⟩
    · intro r j h1 hj
      by_cases hri : r = i + 1
      · subst hri
        rw [g3 _ (by omega), g1, if_pos (by omega)]
        congr 1; omega
      · rw [g2 r j (by omega) hj, g1, if_neg]
        have : (r + 1) * w ≤ (i + 1) * w := Nat.mul_le_mul_right w (by omega)
        rw [Nat.add_mul] at this
        omega
    · intro x hx
      rw [g3 x (by omega), g1, if_neg (by omega)]

/-- An ordinary matrix: owns its block, starts it, rows contiguous, block of the right size. -/
def FlatMat.Ordinary (m : FlatMat α) : Prop :=
  m.owner = true ∧ m.atStart = true ∧ m.tda = m.size2 ∧ m.mem.length = m.size1 * m.size2

/-- **C07** (positive new height; `C07_zero_height_ub` shows that the restriction is
needed). Resizing any ordinary matrix to any positive height and any width stays inside the block
at every step, gives an ordinary matrix of the new size, and keeps every cell that exists in both. -/
theorem C07_matrix_realloc (m : FlatMat α) (hm : m.Ordinary) (nh nw : Nat) (hh : 0 < nh)
    (h1 : 0 < m.size1) :
    ∃ m', matRealloc (some m) nh nw = .ok (some m', some m') ∧ m'.Ordinary ∧
      m'.size1 = nh ∧ m'.size2 = nw ∧
      ∀ i j, i < min m.size1 nh → j < min m.size2 nw → m'.cell i j = m.cell i j := by
  obtain ⟨ho, hs, ht, hl⟩ := hm
  have hflag : (!m.atStart || !m.owner || m.tda != m.size2) = false := by simp [ho, hs, ht]
  unfold matRealloc
  simp only [hflag, Bool.false_eq_true, if_false]
  by_cases hc : m.size2 > nw
  · simp only [hc, if_true]
    obtain ⟨mem', e, l', g1, g2⟩ := narrow_ok m.size2 nw m.size1 (by omega) (min m.size1 nh - 1) 0 m.mem
      (by omega) hl
    simp only [Nat.zero_mul] at e
    rw [e]
    refine ⟨_, rfl, ⟨ho, hs, rfl, by simp [realloc_length]⟩, rfl, rfl, ?_⟩
    intro i j hi hj
    unfold FlatMat.cell
    simp only [ht]
    rw [realloc_get _ _ _ (mul_add_lt (by omega) (by omega))
      (by rw [l']; exact Nat.lt_of_lt_of_le (mul_add_lt (h := m.size1) (w := nw) (by omega) (by omega))
            (Nat.mul_le_mul_left _ (by omega)))]
    by_cases h0 : i = 0
    · subst h0
      rw [g2 _ (by omega)]; simp
    · rw [g1 i j (by omega) (by omega) (by omega)]
  · by_cases hc2 : m.size2 < nw
    · have hmin : min m.size1 nh ≠ 0 := by omega
      simp only [hc, if_false, hc2, if_true, hmin]
      have hblk : min m.size1 nh * nw ≤ (realloc m.mem (nh * nw)).length := by
        rw [realloc_length]; exact Nat.mul_le_mul_right _ (by omega)
      obtain ⟨mem', e, l', g1, -⟩ := widen_ok m.size2 nw (min m.size1 nh) (by omega)
        (min m.size1 nh - 1) 0 (realloc m.mem (nh * nw)) (by omega)
        (by rw [Nat.sub_add_cancel (by omega)]; omega) hblk
      rw [e]
      refine ⟨_, rfl, ⟨ho, hs, rfl, by simp [l', realloc_length]⟩, rfl, rfl, ?_⟩
      intro i j hi hj
      unfold FlatMat.cell
      simp only [ht]
      rw [g1 i j (by omega) (by omega), realloc_get]
      · exact Nat.lt_of_lt_of_le (mul_add_lt (h := nh) (w := m.size2) (by omega) (by omega))
          (Nat.mul_le_mul_left _ (by omega))
      · rw [hl]; exact mul_add_lt (by omega) (by omega)
    · have hw : m.size2 = nw := by omega
      simp only [hc, if_false, hc2]
      refine ⟨_, rfl, ⟨ho, hs, rfl, by simp [realloc_length]⟩, rfl, rfl, ?_⟩
      intro i j hi hj
      unfold FlatMat.cell
      simp only [ht]
      rw [hw, realloc_get]
      · exact mul_add_lt (by omega) (by omega)
      · rw [hl, hw]; exact mul_add_lt (by omega) (by omega)

/-- **C07** (finding): asking for zero rows and more columns runs a loop from 2^64-1 and writes
before the block. -/
theorem C07_zero_height_ub (m : FlatMat α) (hm : m.Ordinary) (nw : Nat) (h : m.size2 < nw) :
    matRealloc (some m) 0 nw = .ub := by
  obtain ⟨ho, hs, ht, -⟩ := hm
  have hflag : (!m.atStart || !m.owner || m.tda != m.size2) = false := by simp [ho, hs, ht]
  have hc : ¬ m.size2 > nw := by omega
  simp [matRealloc, hflag, hc, h]

/-- **C07** (views): a matrix that is a view of another (does not own or start its block, or has
gaps between rows) is refused: NULL is returned and it is unchanged. -/
theorem C07_views_refused (m : FlatMat α) (nh nw : Nat)
    (h : m.owner = false ∨ m.atStart = false ∨ m.tda ≠ m.size2) :
    matRealloc (some m) nh nw = .ok (none, some m) := by
  have : (!m.atStart || !m.owner || m.tda != m.size2) = true := by
    rcases h with h | h | h <;> simp [h]
  simp [matRealloc, this]

/-- **C07** (NULL input): allocates, or returns NULL for an empty size. -/
theorem C07_null (nh nw : Nat) : ∃ r, matRealloc (none : Option (FlatMat α)) nh nw = .ok (r, none) ∧
    (r = none ↔ nh = 0 ∨ nw = 0) ∧ ∀ m, r = some m → m.Ordinary ∧ m.size1 = nh ∧ m.size2 = nw := by
  unfold matRealloc
  by_cases h : nh ≠ 0 ∧ nw ≠ 0
  · refine ⟨_, rfl, by simp [h], ?_⟩
    intro m hm
    rw [if_pos h] at hm
    cases hm
    exact ⟨⟨rfl, rfl, rfl, by simp⟩, rfl, rfl⟩
  · refine ⟨_, rfl, ?_, by simp [h]⟩
    simp only [h, if_false]; simp; omega

/-- Non-vacuity: a 2x3 matrix, widened to 3x4 and narrowed to 2x2. -/
def demo : FlatMat Nat := ⟨[some 0, some 1, some 2, some 10, some 11, some 12], 2, 3, 3, true, true⟩
example : demo.Ordinary := ⟨rfl, rfl, rfl, rfl⟩
example : (matRealloc (some demo) 3 4).map (fun r => r.1.map FlatMat.mem) =
    .ok (some [some 0, some 1, some 2, some 10, some 10, some 11, some 12, none, none, none, none, none]) := by
  decide
example : (matRealloc (some demo) 2 2).map (fun r => r.1.map FlatMat.mem) =
    .ok (some [some 0, some 1, some 10, some 11]) := by decide

/-! ## C08 -/

/-- An ordinary vector. -/
def FlatVec.Ordinary (v : FlatVec α) : Prop :=
  v.owner = true ∧ v.atStart = true ∧ v.stride = 1 ∧ v.mem.length = v.size

/-- **C08.** Resizing an ordinary vector gives an ordinary vector of the requested size that keeps
the common prefix. -/
theorem C08_vector_realloc (v : FlatVec α) (hv : v.Ordinary) (n : Nat) :
    ∃ v', vecRealloc (some v) n = (some v', some v') ∧ v'.Ordinary ∧ v'.size = n ∧
      ∀ i, i < min v.size n → v'.mem[i]? = v.mem[i]? := by
  obtain ⟨h1, h2, h3, h4⟩ := hv
  have hflag : (!v.atStart || !v.owner || v.stride != 1) = false := by simp [h1, h2, h3]
  unfold vecRealloc
  simp only [hflag, Bool.false_eq_true, if_false]
  refine ⟨_, rfl, ⟨h1, h2, h3, by simp [realloc_length]⟩, rfl, ?_⟩
  intro i hi
  exact realloc_get _ _ _ (by omega) (by omega)

/-- **C08** (views refused). -/
theorem C08_views_refused (v : FlatVec α) (n : Nat)
    (h : v.owner = false ∨ v.atStart = false ∨ v.stride ≠ 1) :
    vecRealloc (some v) n = (none, some v) := by
  have : (!v.atStart || !v.owner || v.stride != 1) = true := by
    rcases h with h | h | h <;> simp [h]
  simp [vecRealloc, this]

/-- **C08** (NULL input): allocates, or NULL for size 0. -/
theorem C08_null (n : Nat) : ∃ r, vecRealloc (none : Option (FlatVec α)) n = (r, none) ∧
    (r = none ↔ n = 0) ∧ ∀ v, r = some v → v.Ordinary ∧ v.size = n := by
  unfold vecRealloc
  by_cases h : n ≠ 0
  · refine ⟨_, rfl, by simp [h], ?_⟩
    intro m hm
    rw [if_pos h] at hm
    cases hm
    exact ⟨⟨rfl, rfl, rfl, by simp⟩, rfl⟩
  · exact ⟨_, rfl, by simp at h; simp [h], by simp [h]⟩

example : (⟨[some 1, some 2], 2, 1, true, true⟩ : FlatVec Nat).Ordinary := ⟨rfl, rfl, rfl, rfl⟩

end Apop.Realloc
