import Verif.Fisher.F4Bound

/-! # The search of f4xact ends, and finds no more than there is -/

namespace Apop.Fisher.F3
open Apop Apop.Fisher Finset

/-! ## A row or a column more -/

/-- A column in front: all of it in row `i`. -/
def addCol {n m : ℕ} (T : Table n m) (i : Fin n) (z : ℕ) : Table n (m + 1) :=
  fun k => Fin.cons (if k = i then z else 0) (T k)

theorem addCol_rowTot {n m : ℕ} (T : Table n m) (i : Fin n) (z : ℕ) (k : Fin n) :
    rowTot (addCol T i z) k = (if k = i then z else 0) + rowTot T k := by
  unfold rowTot addCol; rw [Fin.sum_univ_succ]; simp

theorem addCol_colTot {n m : ℕ} (T : Table n m) (i : Fin n) (z : ℕ) : List.ofFn (colTot (addCol T i z)) = z :: List.ofFn (colTot T) := by
  rw [List.ofFn_succ]
  congr 1
  unfold colTot addCol
  simp

theorem addCol_cellSum {n m : ℕ} (T : Table n m) (i : Fin n) (z : ℕ) : cellSum (addCol T i z) = lf z + cellSum T := by
  unfold cellSum addCol
  have : ∀ k, ∑ l, lf ((Fin.cons (if k = i then z else 0) (T k) : Fin (m + 1) → ℕ) l) = (if k = i then lf z else 0) + ∑ l, lf (T k l) := by
    intro k
    rw [Fin.sum_univ_succ]
    simp only [Fin.cons_zero, Fin.cons_succ]
    split
    · rfl
    · rw [lf_zero]
  rw [sum_congr rfl (fun k _ => this k), sum_add_distrib]
  simp

/-- A row of zeros in front. -/
def addRow {n m : ℕ} (T : Table n m) : Table (n + 1) m := Fin.cons (fun _ => 0) T

theorem addRow_rowTot {n m : ℕ} (T : Table n m) : List.ofFn (rowTot (addRow T)) = 0 :: List.ofFn (rowTot T) := by
  rw [List.ofFn_succ]
  congr 1
  unfold rowTot addRow
  simp

theorem addRow_colTot {n m : ℕ} (T : Table n m) : colTot (addRow T) = colTot T := by
  funext j
  unfold colTot addRow
  rw [Fin.sum_univ_succ]; simp

theorem addRow_cellSum {n m : ℕ} (T : Table n m) : cellSum (addRow T) = cellSum T := by
  unfold cellSum addRow
  rw [Fin.sum_univ_succ]; simp [lf_zero]

theorem tab_zero {r c : List ℕ} {q : ℝ} (h : Tab r c q) : Tab (0 :: r) c q := by
  obtain ⟨n, m, T, h1, h2, h3⟩ := h
  exact ⟨n + 1, m, addRow T, by rw [addRow_rowTot]; exact h1.cons _, by rw [addRow_colTot]; exact h2, by rw [addRow_cellSum]; exact h3⟩

theorem tab_more {r c : List ℕ} {x z : ℕ} {q : ℝ} (hxz : z ≤ x) (h : Tab ((x - z) :: r) c q) : Tab (x :: r) (z :: c) (lf z + q) := by
  obtain ⟨n, m, T, h1, h2, h3⟩ := h
  have hmem : x - z ∈ List.ofFn (rowTot T) := h1.mem_iff.mpr (by simp)
  obtain ⟨i, hi⟩ := List.mem_ofFn.mp hmem
  refine ⟨n, m + 1, addCol T i z, ?_, by rw [addCol_colTot]; exact h2.cons _, by rw [addCol_cellSum, h3]⟩
  match n, T, i, h1, hi with
  | 0, _, i, _, _ => exact i.elim0
  | n + 1, T, i, h1, hi =>
    have e1 := ofFn_front (rowTot T) i
    have e2 := ofFn_front (rowTot (addCol T i z)) i
    have e3 : (fun k => rowTot (addCol T i z) (i.succAbove k)) = fun k => rowTot T (i.succAbove k) := by
      funext k
      rw [addCol_rowTot, if_neg (Fin.succAbove_ne i k), Nat.zero_add]
    rw [e3, addCol_rowTot, if_pos rfl, hi] at e2
    rw [hi] at e1
    have e4 := (e1.trans h1).cons_inv
    refine e2.symm.trans ?_
    rw [show z + (x - z) = x by omega]
    exact e4.cons _

theorem rest_tab {r c : List ℕ} {x z : ℕ} {q : ℝ} (h : Rest x z r c q) : Tab (x :: r) (z :: c) (lf (min x z) + q) := by
  unfold Rest at h
  split at h
  · rename_i e
    subst e
    rw [Nat.min_self]
    exact tab_more (le_refl _) (by rw [Nat.sub_self]; exact tab_zero h)
  · split at h
    · rename_i e2
      rw [Nat.min_eq_right e2.le]
      exact tab_more e2.le h
    · rename_i e e2
      rw [Nat.min_eq_left (by omega)]
      exact (tab_more (by omega) h.flip).flip

theorem next_tab_inv {r c : List ℕ} {i j : ℕ} (hi : i < r.length) (hj : j < c.length) {q : ℝ} (h : Tab (next r c i j).1 (next r c i j).2 q) :
    Tab r c (lf (min (r.getD i 0) (c.getD j 0)) + q) := by
  refine (rest_tab (r := f11act r i) (c := f11act c j) ?_).perm (f11act_perm hi) (f11act_perm hj)
  unfold next at h
  unfold Rest
  split at h
  · rename_i e; rw [if_pos e]; exact h
  · rename_i e; rw [if_neg e]
    split at h
    · rename_i e2; rw [if_pos e2]; exact h.perm (f8xact_perm _ _ _) (List.Perm.refl _)
    · rename_i e2; rw [if_neg e2]; exact h.perm (List.Perm.refl _) (f8xact_perm _ _ _)

/-! ## What the search ends with -/

/-- It is the sum for a table. -/
def Sound (dspt y amx : ℝ) (P : ℝ → Prop) : R4 → Prop
  | .run a => a = amx ∨ ∃ q, P q ∧ a = y + q
  | .stop => ∃ q, P q ∧ dspt - (y + q) ≤ tolC
  | .ub => True

theorem leaf_sound {dspt y amx q : ℝ} {P : ℝ → Prop} (h : P q) : Sound dspt y amx P (leaf dspt (y + q) amx) := by
  unfold leaf
  split
  · split
    · rename_i h2; exact ⟨q, h, h2⟩
    · exact Or.inr ⟨q, h, rfl⟩
  · exact Or.inl rfl

theorem tab_row {x : ℕ} {c : List ℕ} (h : x = c.sum) : Tab [x] c (c.map lf).sum := by
  refine ⟨1, c.length, fun _ j => c.get j, ?_, ?_, ?_⟩
  · have : rowTot (fun (_ : Fin 1) (j : Fin c.length) => c.get j) = fun _ => c.sum := by
      funext _
      unfold rowTot
      rw [← List.sum_ofFn, List.ofFn_get]
    rw [this, h]; simp
  · have : colTot (fun (_ : Fin 1) (j : Fin c.length) => c.get j) = c.get := by
      funext j; unfold colTot; simp
    rw [this, List.ofFn_get]
  · unfold cellSum
    rw [Fin.sum_univ_one, ← sum_ofFn_map]
    rw [List.ofFn_get]

theorem next_sum {r c : List ℕ} {i j : ℕ} (hi : i < r.length) (hj : j < c.length) (h : r.sum = c.sum) :
    (next r c i j).1.sum = (next r c i j).2.sum := by
  have h1 := (f11act_perm hi).sum_eq
  have h2 := (f11act_perm hj).sum_eq
  rw [List.sum_cons] at h1 h2
  unfold next
  split
  · simp only []; omega
  · split
    · simp only [(f8xact_perm _ _ _).sum_eq, List.sum_cons]; omega
    · simp only [(f8xact_perm _ _ _).sum_eq, List.sum_cons]; omega

theorem endPath_sound {fact : Fact} (hf : FactOK fact) {dspt y amx : ℝ} {l : List ℕ} {P : ℝ → Prop} (h : P (l.map lf).sum) :
    Sound dspt y amx P (endPath dspt y amx (sumFact fact (l.map (fun x : ℕ => (x : ℤ))))) := by
  cases hs : sumFact fact (l.map (fun x : ℕ => (x : ℤ))) with
  | ub => trivial
  | ok s =>
    rw [← sumFact_spec hf hs] at h
    exact leaf_sound h

/-- The search from any totals ends with the sum for a table. -/
def Founds (dspt : ℝ) (rec : List ℕ → List ℕ → ℝ → ℝ → R4) : Prop := ∀ r c y amx, r.sum = c.sum → 2 ≤ r.length → 2 ≤ c.length →
  Sound dspt y amx (Tab r c) (rec r c y amx)

theorem descend_sound {fact : Fact} (hf : FactOK fact) {dspt : ℝ} {rec : List ℕ → List ℕ → ℝ → ℝ → R4} (hrec : Founds dspt rec)
    {p : List ℕ × List ℕ} {y amx : ℝ} (hs : p.1.sum = p.2.sum) (h1 : 1 ≤ p.1.length) (h2 : 1 ≤ p.2.length) :
    Sound dspt y amx (Tab p.1 p.2) (descend fact dspt rec p y amx) := by
  unfold descend
  split
  · rename_i e
    obtain ⟨x, hx⟩ := List.length_eq_one_iff.mp e
    refine endPath_sound hf ?_
    rw [hx] at hs ⊢
    exact tab_row (by simpa using hs)
  · split
    · rename_i e
      obtain ⟨x, hx⟩ := List.length_eq_one_iff.mp e
      refine endPath_sound hf ?_
      rw [hx] at hs ⊢
      exact (tab_row (by simpa using hs.symm)).flip
    · exact hrec _ _ _ _ hs (by omega) (by omega)

theorem child_sound {fact : Fact} (hf : FactOK fact) {dspt : ℝ} {rec : List ℕ → List ℕ → ℝ → ℝ → R4} (hrec : Founds dspt rec)
    {r c : List ℕ} {y amx : ℝ} {p : ℕ × ℕ} (hs : r.sum = c.sum) (hr : 2 ≤ r.length) (hc : 2 ≤ c.length) (h1 : p.1 < r.length) (h2 : p.2 < c.length) :
    Sound dspt y amx (Tab r c) (child fact dspt rec r c y p amx) := by
  unfold child
  split
  · trivial
  · rename_i f hfm
    have hl := next_length h1 h2
    have := descend_sound hf hrec (p := next r c p.1 p.2) (y := y + f) (amx := amx) (next_sum h1 h2 hs) (by omega) (by omega)
    have he := hf _ _ hfm
    cases hd : descend fact dspt rec (next r c p.1 p.2) (y + f) amx with
    | ub => trivial
    | stop =>
      rw [hd] at this
      obtain ⟨q, hq, hle⟩ := this
      exact ⟨_, next_tab_inv h1 h2 hq, by rw [← he]; linarith⟩
    | run a =>
      rw [hd] at this
      rcases this with e | ⟨q, hq, e⟩
      · exact Or.inl e
      · exact Or.inr ⟨_, next_tab_inv h1 h2 hq, by rw [← he, e]; ring⟩

theorem each_sound {dspt y : ℝ} {P : ℝ → Prop} {f : ℕ × ℕ → ℝ → R4} {ps : List (ℕ × ℕ)} :
    (∀ p ∈ ps, ∀ amx, Sound dspt y amx P (f p amx)) → ∀ amx, Sound dspt y amx P (each f ps amx) := by
  induction ps with
  | nil => intro _ amx; exact Or.inl rfl
  | cons p ps ih =>
    intro h amx
    have h1 := h p (by simp) amx
    have h2 := ih (fun p hp => h p (by simp [hp]))
    unfold each
    cases hp : f p amx with
    | ub => trivial
    | stop => rw [hp] at h1; exact h1
    | run a =>
      rw [hp] at h1
      have h3 := h2 a
      simp only []
      cases he : each f ps a with
      | ub => trivial
      | stop => rw [he] at h3; exact h3
      | run b =>
        rw [he] at h3
        rcases h3 with e | h3
        · rw [e]; exact h1
        · exact Or.inr h3

theorem dfs_sound {fact : Fact} (hf : FactOK fact) (dspt : ℝ) (n : ℕ) : Founds dspt (dfs fact dspt n) := by
  induction n with
  | zero => intro r c y amx _ _ _; trivial
  | succ n ih =>
    intro r c y amx hs hr hc
    unfold dfs
    refine each_sound (fun p hp amx => ?_) amx
    obtain ⟨h1, h2⟩ := cells_lt hr hc hp
    exact child_sound hf ih hs hr hc h1 h2

/-! ## The search ends, within the array -/

theorem sumFact_arr {N : ℕ} {l : List ℕ} (h : ∀ x ∈ l, x ≤ N) : ∃ s, sumFact (factArr N) (l.map (fun x : ℕ => (x : ℤ))) = .ok s := by
  induction l with
  | nil => exact ⟨0, rfl⟩
  | cons x l ih =>
    obtain ⟨s, hs⟩ := ih (fun y hy => h y (by simp [hy]))
    have hx := h x (by simp)
    have e : factArr N (x : ℤ) = .ok (factC x) := by
      unfold factArr
      rw [if_pos ⟨by omega, by exact_mod_cast hx⟩]; simp
    refine ⟨factC x + s, ?_⟩
    simp only [List.map_cons, sumFact, e, hs]

theorem leaf_ne (dspt y amx : ℝ) : leaf dspt y amx ≠ .ub := by
  unfold leaf
  split
  · split <;> simp
  · simp

theorem getD_le {l : List ℕ} {N : ℕ} (h : ∀ x ∈ l, x ≤ N) (i : ℕ) : l.getD i 0 ≤ N := by
  by_cases hi : i < l.length
  · rw [List.getD_eq_getElem _ _ hi]; exact h _ (List.getElem_mem hi)
  · rw [List.getD_eq_default _ _ (by omega)]; omega

theorem f11act_le {l : List ℕ} {N : ℕ} (h : ∀ x ∈ l, x ≤ N) (i : ℕ) : ∀ x ∈ f11act l i, x ≤ N := by
  intro x hx
  unfold f11act at hx
  rw [← List.eraseIdx_eq_take_drop_succ] at hx
  exact h x ((List.eraseIdx_sublist _ _).subset hx)

theorem f8xact_le {l : List ℕ} {N s : ℕ} (h : ∀ x ∈ l, x ≤ N) (hs : s ≤ N) (i : ℕ) : ∀ x ∈ f8xact l s i, x ≤ N := by
  intro x hx
  rcases List.mem_cons.mp ((f8xact_perm l s i).mem_iff.mp hx) with e | e
  · omega
  · exact f11act_le h i x e

theorem next_le {r c : List ℕ} {N : ℕ} (hr : ∀ x ∈ r, x ≤ N) (hc : ∀ x ∈ c, x ≤ N) (i j : ℕ) :
    (∀ x ∈ (next r c i j).1, x ≤ N) ∧ ∀ x ∈ (next r c i j).2, x ≤ N := by
  have h1 := getD_le hr i
  have h2 := getD_le hc j
  unfold next
  split
  · exact ⟨f11act_le hr i, f11act_le hc j⟩
  · split
    · exact ⟨f8xact_le hr (by omega) i, f11act_le hc j⟩
    · exact ⟨f11act_le hr i, f8xact_le hc (by omega) j⟩

theorem each_ne {f : ℕ × ℕ → ℝ → R4} {ps : List (ℕ × ℕ)} : (∀ p ∈ ps, ∀ a, f p a ≠ .ub) → ∀ a, each f ps a ≠ .ub := by
  induction ps with
  | nil => intro _ a; simp [each]
  | cons p ps ih =>
    intro h a
    unfold each
    cases hp : f p a with
    | ub => exact absurd hp (h p (by simp) a)
    | stop => simp
    | run b => exact ih (fun p hp => h p (by simp [hp])) b

theorem dfs_ne {N : ℕ} (dspt : ℝ) (n : ℕ) : ∀ (r c : List ℕ) (y amx : ℝ), (∀ x ∈ r, x ≤ N) → (∀ x ∈ c, x ≤ N) → 2 ≤ r.length → 2 ≤ c.length →
    r.length + c.length ≤ n + 3 → dfs (factArr N) dspt n r c y amx ≠ .ub := by
  induction n with
  | zero => intro r c y amx _ _ h1 h2 h3; omega
  | succ n ih =>
    intro r c y amx hr hc hr1 hc1 hn
    unfold dfs
    refine each_ne (fun p hp a => ?_) amx
    obtain ⟨hp1, hp2⟩ := cells_lt hr1 hc1 hp
    have hl := next_length hp1 hp2
    obtain ⟨hb1, hb2⟩ := next_le hr hc p.1 p.2
    unfold child
    have hm : min (r.getD p.1 0) (c.getD p.2 0) ≤ N := le_trans (Nat.min_le_left _ _) (getD_le hr p.1)
    have e : factArr N ((min (r.getD p.1 0) (c.getD p.2 0) : ℕ) : ℤ) = .ok (factC (min (r.getD p.1 0) (c.getD p.2 0))) := by
      unfold factArr
      rw [if_pos ⟨by omega, by exact_mod_cast hm⟩]; rw [Int.toNat_natCast]
    rw [e]
    simp only []
    unfold descend
    split
    · obtain ⟨s, hs⟩ := sumFact_arr hb2
      rw [hs]; exact leaf_ne _ _ _
    · split
      · obtain ⟨s, hs⟩ := sumFact_arr hb1
        rw [hs]; exact leaf_ne _ _ _
      · exact ih _ _ _ _ hb1 hb2 (by omega) (by omega) (by omega)

end Apop.Fisher.F3
