import Verif.Conv.Model
import Verif.Access.Props
import Verif.Text.Props

/-! # C22 (rank format), C39 (vector to matrix), C38 (crosstab names) -/

namespace Apop.Conv
variable {α : Type}

/-! ## C22 -/

theorem incr_eq {bins : List Nat} {x : Int} (h0 : 0 ≤ x) (h : x.toNat < bins.length) :
    incr bins x = .ok (bins.set x.toNat (bins[x.toNat] + 1)) := by
  simp [incr, Int.not_lt.2 h0, rd_of_lt h, wr_of_lt h]

theorem incrAll_eq : ∀ (xs : List Int) (bins : List Nat), (∀ x ∈ xs, 0 ≤ x ∧ x.toNat < bins.length) →
    ∃ bins', incrAll bins xs = .ok bins' ∧ bins'.length = bins.length ∧
      ∀ k : Nat, k < bins.length → bins'[k]?.getD 0 = bins[k]?.getD 0 + xs.count (k : Int)
  | [], bins, _ => ⟨bins, rfl, rfl, by simp⟩
  | x :: xs, bins, h => by
    obtain ⟨h0, h1⟩ := h x (by simp)
    obtain ⟨b', a, b, c⟩ := incrAll_eq xs (bins.set x.toNat (bins[x.toNat] + 1)) (by
      intro y hy; simpa using h y (by simp [hy]))
    refine ⟨b', by simp [incrAll, incr_eq h0 h1, a], by simpa using b, ?_⟩
    intro k hk
    rw [c k (by simpa using hk), List.count_cons]
    by_cases e : k = x.toNat
    · subst e
      have : ((x.toNat : Nat) : Int) = x := Int.toNat_of_nonneg h0
      simp [this, h1]; omega
    · have h2 : x ≠ (k : Int) := by rintro rfl; simp at e
      have h3 : x.toNat ≠ k := fun h => e h.symm
      simp [h2, h3]

theorem foldl_max_ge : ∀ (xs : List Int) (a : Int), a ≤ xs.foldl max a ∧ ∀ x ∈ xs, x ≤ xs.foldl max a
  | [], a => ⟨Int.le_refl a, by simp⟩
  | y :: ys, a => by
    obtain ⟨h1, h2⟩ := foldl_max_ge ys (max a y)
    simp only [List.foldl_cons]
    refine ⟨by omega, ?_⟩
    intro x hx
    rcases List.mem_cons.1 hx with rfl | h
    · omega
    · exact h2 x h

theorem foldl_max_mem : ∀ (xs : List Int) (a : Int), xs.foldl max a ∈ a :: xs
  | [], a => by simp
  | y :: ys, a => by
    have := foldl_max_mem ys (max a y)
    simp only [List.foldl_cons]
    rcases List.mem_cons.1 this with h | h
    · rw [h]
      by_cases hm : a ≤ y
      · rw [Int.max_eq_right hm]; simp
      · rw [Int.max_eq_left (by omega)]; simp
    · simp [h]

theorem maxOf_ge {xs : List Int} : ∀ x ∈ xs, x ≤ maxOf xs := by
  cases xs with
  | nil => simp
  | cons a xs =>
    intro x hx
    obtain ⟨h1, h2⟩ := foldl_max_ge xs a
    rcases List.mem_cons.1 hx with rfl | h
    · exact h1
    · exact h2 x h

/-- All observations of a data set: those in the matrix and those in the vector. -/
def observations (vec : Option (List Int)) (mat : Option (Mat Int)) : List Int :=
  (mat.map (·.rows.flatten)).getD [] ++ vec.getD []

theorem obs_le_upper (vec : Option (List Int)) (mat : Option (Mat Int)) (mb : Int) :
    ∀ x ∈ observations vec mat, x ≤ upperBound vec mat mb := by
  intro x hx
  unfold observations at hx
  unfold upperBound
  rcases List.mem_append.1 hx with h | h
  · cases hm : mat with
    | none => simp [hm] at h
    | some m =>
      simp only [hm, Option.map_some, Option.getD_some] at h
      have := maxOf_ge x h
      simp only; omega
  · cases hv : vec with
    | none => simp [hv] at h
    | some v =>
      simp only [hv, Option.getD_some] at h
      have := maxOf_ge x h
      simp only; omega

/-- **C22, compressing**: for data that are whole numbers and not negative, bin `k` is the number of `k`s, and every
observation has its bin. -/
theorem C22_compress (vec : Option (List Int)) (mat : Option (Mat Int)) (mb : Int)
    (h0 : ∀ x ∈ observations vec mat, 0 ≤ x) :
    ∃ bins, compress vec mat mb = .ok bins ∧ bins.length = (upperBound vec mat mb + 1).toNat ∧
      (∀ x ∈ observations vec mat, x.toNat < bins.length) ∧
      ∀ k : Nat, k < bins.length → bins[k]? = some ((observations vec mat).count (k : Int)) := by
  have hin : ∀ x ∈ observations vec mat, 0 ≤ x ∧ x.toNat < (upperBound vec mat mb + 1).toNat := by
    intro x hx
    have h1 := h0 x hx
    have h2 := obs_le_upper vec mat mb x hx
    exact ⟨h1, by omega⟩
  unfold compress
  obtain ⟨b1, a1, l1, c1⟩ := incrAll_eq ((mat.map (·.rows.flatten)).getD []) (List.replicate (upperBound vec mat mb + 1).toNat 0)
    (by intro x hx; simpa using hin x (by simp [observations, hx]))
  obtain ⟨b2, a2, l2, c2⟩ := incrAll_eq (vec.getD []) b1
    (by intro x hx; rw [l1]; simpa using hin x (by simp [observations, hx]))
  have hl : b2.length = (upperBound vec mat mb + 1).toNat := by rw [l2, l1]; simp
  refine ⟨b2, by simp [a1, a2], hl, ?_, ?_⟩
  · intro x hx; rw [hl]; exact (hin x hx).2
  · intro k hk
    have e2 := c2 k (by omega)
    have e1 := c1 k (by simp; omega)
    rw [List.getElem?_eq_getElem hk]
    rw [List.getElem?_eq_getElem hk] at e2
    simp only [Option.getD_some] at e2
    rw [e2, e1, observations, List.count_append]
    simp [List.getElem?_replicate]
    split <;> simp

/-- **C22, how many bins** when the data are a vector only (or a matrix only): the largest observation or `min_bins`,
whichever is more, plus the zero bin. -/
theorem C22_bins (v : List Int) (hv : v ≠ []) (mb : Int) (m : Mat Int) (hm : m.rows.flatten ≠ []) :
    (∃ x ∈ v, (∀ y ∈ v, y ≤ x) ∧ upperBound (some v) none mb = max mb x) ∧
    (∃ x ∈ m.rows.flatten, (∀ y ∈ m.rows.flatten, y ≤ x) ∧ upperBound none (some m) mb = max x mb) := by
  have hmem : ∀ l : List Int, l ≠ [] → maxOf l ∈ l := by
    intro l hl
    cases l with
    | nil => exact absurd rfl hl
    | cons a l => exact foldl_max_mem l a
  exact ⟨⟨maxOf v, hmem v hv, maxOf_ge, rfl⟩, ⟨maxOf m.rows.flatten, hmem _ hm, maxOf_ge, rfl⟩⟩

/-- With both a vector and a matrix, `min_bins` is ignored: the documented bin is missing. -/
theorem C22_min_bins_ignored : compress (some [0, 1]) (some ⟨[[1, 0]], 2⟩) 5 = .ok [2, 2] := by decide +kernel

theorem putTimes_eq (k : Nat) : ∀ (n : Nat) (A B : List (Option Nat)), n ≤ B.length →
    putTimes k n A.length (A ++ B) = .ok (A ++ List.replicate n (some k) ++ B.drop n, A.length + n)
  | 0, A, B, _ => by simp [putTimes]
  | n + 1, A, b :: B, h => by
    have hw : wr (A ++ b :: B) A.length (some k) = .ok ((A ++ [some k]) ++ B) := by
      rw [wr_of_lt (by simp)]; simp [List.set_append_right]
    have ih := putTimes_eq k n (A ++ [some k]) B (by simp at h; omega)
    simp only [List.length_append, List.length_singleton] at ih
    rw [putTimes, hw]
    simp only [Res.bind_ok]
    rw [ih]
    simp [List.replicate_succ]; omega

/-- `k` repeated `ns[0]` times, `k+1` repeated `ns[1]` times, ... -/
def spread (k : Nat) : List Nat → List Nat
  | [] => []
  | n :: ns => List.replicate n k ++ spread (k + 1) ns

theorem spread_length (ns : List Nat) : ∀ k, (spread k ns).length = ns.sum := by
  induction ns with
  | nil => intro k; rfl
  | cons n ns ih => intro k; simp [spread, ih]

theorem expandRow_eq : ∀ (ns : List Nat) (k : Nat) (A B : List (Option Nat)), ns.sum ≤ B.length →
    expandRow ns k A.length (A ++ B) = .ok (A ++ (spread k ns).map some ++ B.drop ns.sum, A.length + ns.sum)
  | [], k, A, B, _ => by simp [expandRow, spread]
  | n :: ns, k, A, B, h => by
    simp only [List.sum_cons] at h
    rw [expandRow, putTimes_eq k n A B (by omega)]
    simp only [Res.bind_ok]
    have ih := expandRow_eq ns (k + 1) (A ++ List.replicate n (some k)) (B.drop n) (by simp; omega)
    simp only [List.length_append, List.length_replicate] at ih
    rw [ih]
    simp [spread, List.drop_drop, Nat.add_assoc]

theorem expandRows_eq : ∀ (rs : List (List Nat)) (A B : List (Option Nat)), rs.flatten.sum ≤ B.length →
    expandRows rs A.length (A ++ B) = .ok (A ++ (rs.flatMap (spread 0)).map some ++ B.drop rs.flatten.sum)
  | [], A, B, _ => by simp [expandRows]
  | r :: rs, A, B, h => by
    simp only [List.flatten_cons, List.sum_append] at h
    rw [expandRows, expandRow_eq r 0 A B (by omega)]
    simp only [Res.bind_ok]
    have ih := expandRows_eq rs (A ++ (spread 0 r).map some) (B.drop r.sum) (by simp only [List.length_drop]; omega)
    simp only [List.length_append, List.length_map, spread_length] at ih
    rw [ih]
    simp [List.drop_drop]

theorem count_spread (j : Nat) : ∀ (ns : List Nat) (k : Nat), (spread k ns).count j = if k ≤ j then ns[j - k]?.getD 0 else 0
  | [], k => by simp [spread]
  | n :: ns, k => by
    rw [spread, List.count_append, List.count_replicate, count_spread j ns (k + 1)]
    by_cases h : k = j
    · subst h
      rw [if_neg (show ¬ k + 1 ≤ k by omega)]; simp
    · have hb : (k == j) = false := by simpa using h
      rw [hb, if_neg (by simp), Nat.zero_add]
      by_cases h2 : k ≤ j
      · have : j - k = (j - (k + 1)) + 1 := by omega
        rw [if_pos (show k + 1 ≤ j by omega), if_pos h2, this]
        simp
      · rw [if_neg (show ¬ k + 1 ≤ j by omega), if_neg h2]

theorem spread_ge : ∀ (ns : List Nat) (k : Nat), ∀ x ∈ spread k ns, k ≤ x
  | [], k => by simp [spread]
  | n :: ns, k => by
    intro x hx
    rcases List.mem_append.1 hx with h | h
    · exact Nat.le_of_eq (List.mem_replicate.1 h).2.symm
    · have := spread_ge ns (k + 1) x h; omega

theorem spread_sorted : ∀ (ns : List Nat) (k : Nat), (spread k ns).Pairwise (· ≤ ·)
  | [], k => by simp [spread]
  | n :: ns, k => by
    rw [spread, List.pairwise_append]
    refine ⟨?_, spread_sorted ns (k + 1), ?_⟩
    · rw [List.pairwise_replicate]; right; exact Nat.le_refl k
    · intro a ha b hb
      rw [(List.mem_replicate.1 ha).2]
      have := spread_ge ns (k + 1) b hb; omega

/-- **C22, expanding** a matrix of counts: the result lists, row by row, `k` as often as column `k` says. -/
theorem C22_expand (m : List (List Nat)) (h : m.flatten.sum ≠ 0) :
    ∃ out : List Nat, expand none (some m) = .ok (some (out.map some)) ∧ out.length = m.flatten.sum ∧
      (∀ k, out.count k = (m.map (fun r => r[k]?.getD 0)).sum) ∧
      ∀ r, m = [r] → out.Pairwise (· ≤ ·) := by
  have := expandRows_eq m [] (List.replicate m.flatten.sum none) (by simp)
  simp only [List.length_nil, List.nil_append] at this
  have hlen : (m.flatMap (spread 0)).length = m.flatten.sum := by
    clear this h
    induction m with
    | nil => rfl
    | cons r rs ih => rw [List.flatMap_cons, List.length_append, ih, spread_length, List.flatten_cons, List.sum_append]
  refine ⟨m.flatMap (spread 0), ?_, hlen, ?_, ?_⟩
  · simp only [expand, Option.map_some, Option.getD_some, Option.map_none, Option.getD_none, Nat.add_zero, if_neg h]
    rw [this]
    simp
  · intro k
    rw [List.count_flatMap]
    congr 1
    apply List.map_congr_left
    intro r _
    simp [count_spread]
  · rintro r rfl
    simpa using spread_sorted r 0

theorem le_sum_of_mem : ∀ {l : List Nat} {x : Nat}, x ∈ l → x ≤ l.sum
  | a :: l, x, h => by
    rw [List.sum_cons]
    rcases List.mem_cons.1 h with rfl | h
    · omega
    · have := le_sum_of_mem h; omega

theorem count_ofNat (k : Nat) : ∀ (l : List Nat), (l.map Int.ofNat).count (Int.ofNat k) = l.count k
  | [] => rfl
  | a :: l => by
    rw [List.map_cons, List.count_cons, List.count_cons, count_ofNat k l]
    by_cases h : a = k
    · subst h; simp
    · have : (Int.ofNat a == Int.ofNat k) = false := by
        rw [beq_eq_false_iff_ne]; exact fun e => h (Int.ofNat.inj e)
      have h2 : (a == k) = false := by simpa using h
      rw [this, h2]

/-- **C22, the round trip**: expanding the compressed form gives the observations in ascending order. -/
theorem C22_roundtrip (vec : Option (List Int)) (mat : Option (Mat Int)) (mb : Int)
    (h0 : ∀ x ∈ observations vec mat, 0 ≤ x) (hne : observations vec mat ≠ []) :
    ∃ (bins out : List Nat), compress vec mat mb = .ok bins ∧ expand none (some [bins]) = .ok (some (out.map some)) ∧
      out.Pairwise (· ≤ ·) ∧ (out.map Int.ofNat).Perm (observations vec mat) := by
  obtain ⟨bins, a, b, c, d⟩ := C22_compress vec mat mb h0
  have hsum : [bins].flatten.sum ≠ 0 := by
    obtain ⟨x, hx⟩ := List.exists_mem_of_ne_nil _ hne
    have h1 := d x.toNat (c x hx)
    have h2 : ((x.toNat : Nat) : Int) = x := Int.toNat_of_nonneg (h0 x hx)
    rw [h2] at h1
    have h3 : 0 < (observations vec mat).count x := List.count_pos_iff.2 hx
    have h4 : (observations vec mat).count x ∈ bins := List.mem_of_getElem? h1
    have h5 := le_sum_of_mem h4
    simp; omega
  obtain ⟨out, e1, e2, e3, e4⟩ := C22_expand [bins] hsum
  refine ⟨bins, out, a, e1, e4 bins rfl, ?_⟩
  rw [List.perm_iff_count]
  intro x
  by_cases hx : 0 ≤ x
  · have h2 : (Int.ofNat x.toNat) = x := Int.toNat_of_nonneg hx
    rw [← h2, count_ofNat]
    rw [e3]
    simp only [List.map_cons, List.map_nil, List.sum_cons, List.sum_nil, Nat.add_zero]
    by_cases hk : x.toNat < bins.length
    · rw [d _ hk]; rfl
    · rw [List.getElem?_eq_none (by omega)]
      simp only [Option.getD_none]
      symm
      rw [List.count_eq_zero]
      intro hm
      have := c _ hm
      rw [h2] at this
      exact hk this
  · rw [List.count_eq_zero.2, List.count_eq_zero.2]
    · intro hm; exact hx (h0 x hm)
    · intro hm
      obtain ⟨y, -, rfl⟩ := List.mem_map.1 hm
      exact hx (Int.natCast_nonneg y)

/-- A data set with a vector of counts beside the matrix gets elements that are never written; one with a vector of
counts only dereferences NULL. -/
theorem C22_expand_vector_refuted :
    expand (some [2]) (some [[0, 1]]) = .ok (some [some 1, none, none]) ∧ expand (some [2]) none = .ub := by
  constructor <;> decide +kernel

example : observations (some [2, 0]) (some ⟨[[2, 1]], 2⟩) = [2, 1, 2, 0] := rfl
example : compress (some [2, 0]) (some ⟨[[2, 1]], 2⟩) 0 = .ok [1, 1, 2] := by decide +kernel
example : expand none (some [[1, 1, 2]]) = .ok (some [some 0, some 1, some 2, some 2]) := by decide +kernel

/-! ## C39 -/

/-- **C39**: one row or one column with the vector's elements in order. -/
theorem C39_vector_to_matrix (junk : α) (rc : Char) (v : List α) :
    (toMatrix junk rc v).WF ∧
    (rc = 'r' ∨ rc = 'R' → (toMatrix junk rc v).size1 = 1 ∧ (toMatrix junk rc v).cols = v.length ∧ ∀ j, (toMatrix junk rc v).get? 0 j = v[j]?) ∧
    (¬ (rc = 'r' ∨ rc = 'R') → (toMatrix junk rc v).size1 = v.length ∧ (toMatrix junk rc v).cols = 1 ∧ ∀ i, (toMatrix junk rc v).get? i 0 = v[i]?) := by
  by_cases h : rc = 'r' ∨ rc = 'R'
  · have e : toMatrix junk rc v = ⟨[v], v.length⟩ := by rw [toMatrix, if_pos h]; rfl
    rw [e]
    exact ⟨by simp [Mat.WF], fun _ => ⟨rfl, rfl, by intro j; simp [Mat.get?]⟩, fun h' => absurd h h'⟩
  · have e : toMatrix junk rc v = ⟨v.map (fun x => [x]), 1⟩ := by
      rw [toMatrix, if_neg h]
      congr 1
      simp only [Mat.fresh]
      induction v with
      | nil => rfl
      | cons a v ih => simpa [List.replicate_succ] using ih
    rw [e]
    refine ⟨by simp [Mat.WF], fun h' => absurd h' h, fun _ => ⟨by simp [Mat.size1], rfl, ?_⟩⟩
    intro i
    simp only [Mat.get?, List.getElem?_map]
    cases v[i]? <;> simp

/-- **C39, arrays**: the first `size` elements, for any size given that the array has; without a size, one element. -/
theorem C39_array_to_vector (inp : List α) (size : Nat) :
    (0 < size → size ≤ inp.length → ∃ v, arrayToVector inp size = .ok v ∧ v.length = size ∧ ∀ i < size, v[i]? = inp[i]?) ∧
    (∀ a l, inp = a :: l → arrayToVector inp 0 = .ok [a]) := by
  constructor
  · intro h0 h
    refine ⟨inp.take size, by simp [arrayToVector, Nat.ne_of_gt h0, h], by simp [h], ?_⟩
    intro i hi
    rw [List.getElem?_take_of_lt hi]
  · rintro a l rfl
    simp [arrayToVector]

example : toMatrix 0 'c' [1, 2, 3] = ⟨[[1], [2], [3]], 1⟩ := rfl

/-! ## C38 -/

theorem digits_small {n : Nat} (h : n < 10) : digits n = 1 := by rw [digits, if_pos h]
theorem digits_big {n : Nat} (h : ¬ n < 10) : digits n = digits (n / 10) + 1 := by rw [digits, if_neg h]

theorem digits_spec (n : Nat) : n < 10 ^ digits n ∧ (n ≠ 0 → 10 ^ (digits n - 1) ≤ n) := by
  induction n using Nat.strongRecOn with
  | _ n ih =>
    by_cases h : n < 10
    · rw [digits_small h]; exact ⟨by simpa using h, by simp; omega⟩
    · rw [digits_big h]
      obtain ⟨h1, h2⟩ := ih (n / 10) (by omega)
      have h3 := h2 (by omega)
      have hd : 1 ≤ digits (n / 10) := by rw [digits]; split <;> omega
      refine ⟨?_, fun _ => ?_⟩
      · rw [Nat.pow_succ]; omega
      · have : digits (n / 10) + 1 - 1 = (digits (n / 10) - 1) + 1 := by omega
        rw [this, Nat.pow_succ]; omega

/-- **C38 is false for every table**: whatever the number of rows `m > 0`, if fewer than `m` row names are given, making
up the last name writes past the buffer (`log` is the rounded down logarithm of `m`). -/
theorem C38_names_never_fit_refuted (m ct log : Nat) (hm : 0 < m) (hlo : 10 ^ log ≤ m) (hhi : m < 10 ^ (log + 1)) (hct : ct < m) :
    bufBytes m log < nameBytes (m - 1) ∧ namesFit m ct log = false := by
  obtain ⟨h1, h2⟩ := digits_spec (m - 1)
  have hlog : log ≤ digits (m - 1) := by
    refine Classical.byContradiction fun h => ?_
    have h3 : digits (m - 1) + 1 ≤ log := by omega
    have h4 : 10 ^ (digits (m - 1) + 1) ≤ 10 ^ log := Nat.pow_le_pow_right (by omega) h3
    rw [Nat.pow_succ] at h4
    omega
  have hlt : bufBytes m log < nameBytes (m - 1) := by
    unfold bufBytes nameBytes; rw [if_pos hm]; omega
  refine ⟨hlt, ?_⟩
  unfold namesFit
  rw [List.all_eq_false]
  exact ⟨m - 1, by simp; omega, by simp; omega⟩

/-- With all names given nothing is made up and nothing overflows. -/
theorem C38_all_names_partial (m ct log : Nat) (h : m ≤ ct) : namesFit m ct log = true := by
  unfold namesFit
  rw [List.all_eq_true]
  intro i hi
  have : i < ct := by have := List.mem_range.1 hi; omega
  simp [this]

example : bufBytes 250 2 = 3 ∧ nameBytes 249 = 5 := by
  simp [bufBytes, nameBytes, digits_big, digits_small]

end Apop.Conv
