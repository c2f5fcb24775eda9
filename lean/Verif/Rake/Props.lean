import Verif.Rake.Kl
import Mathlib.Tactic.IntervalCases

/-! # C91: raking. The properties

Specification: `keys`, `rowsWith`, `marginTotal` and `fitTotal` at the end of the list of definitions in Verif.Rake.Model, `kl` in Verif.Rake.Kl. -/

namespace Apop.Rake
open Finset
variable {α : Type} [LinearOrder α]

theorem mem_rowsWith (t : Table α) (c : List ℕ) (ks : List α) (m : ℕ) : m ∈ rowsWith t c ks ↔ m < t.n ∧ key t c m = ks := by simp [rowsWith]

theorem good_notes (d fit : Table α) (hd : ∀ m, 0 ≤ d.wt m) (c : List ℕ) (hc : c ≠ []) : Good fit.n (notes d fit c) := by
  rw [C91_notes d fit c hc]
  refine ⟨?_, ?_, ?_, ?_⟩
  · simp only [List.mem_map]
    rintro _ ⟨ks, _, rfl⟩
    exact List.Nodup.filter _ List.nodup_range
  · simp only [List.mem_map]
    rintro _ ⟨ks, _, rfl⟩ m hm
    exact ((mem_rowsWith fit c ks m).1 hm).1
  · simp only [List.mem_map]
    rintro _ ⟨ks, _, rfl⟩
    refine List.sum_nonneg ?_
    simp only [List.mem_map]
    rintro _ ⟨m, _, rfl⟩
    exact hd m
  · rw [List.pairwise_map]
    refine (keys_nodup d c).imp ?_
    intro a b hab m h1 h2
    exact hab (((mem_rowsWith fit c a m).1 h1).2.symm.trans ((mem_rowsWith fit c b m).1 h2).2)

theorem good_all (d fit : Table α) (hd : ∀ m, 0 ≤ d.wt m) (cs : List (List ℕ)) (hc : ∀ c ∈ cs, c ≠ []) : ∀ nts ∈ cs.map (notes d fit), Good fit.n nts := by
  simp only [List.mem_map]
  rintro _ ⟨c, h, rfl⟩
  exact good_notes d fit hd c (hc c h)

theorem good1_all (d fit : Table α) (hd : ∀ m, 0 ≤ d.wt m) (cs : List (List ℕ)) (hc : ∀ c ∈ cs, c ≠ []) : ∀ nt ∈ (cs.map (notes d fit)).flatten, Good1 fit.n nt := by
  intro nt h
  obtain ⟨c, h1, h2⟩ := List.mem_flatten.1 h
  exact (good_all d fit hd cs hc c h1).one nt h2

theorem start_nonneg (d fit : Table α) (hd : ∀ m, 0 ≤ d.wt m) (hf : ∀ m, 0 ≤ fit.wt m) : ∀ m, 0 ≤ start d fit m := by
  intro m
  have s : ∀ t : Table α, (∀ m, 0 ≤ t.wt m) → 0 ≤ ((List.range t.n).map t.wt).sum := fun t ht => List.sum_nonneg (by
    simp only [List.mem_map]
    rintro _ ⟨e, _, rfl⟩
    exact ht e)
  exact mul_nonneg (hf m) (div_nonneg (s d hd) (s fit hf))

theorem length_flatten_notes (d fit : Table α) (cs : List (List ℕ)) (hc : ∀ c ∈ cs, c ≠ []) : (cs.map (notes d fit)).flatten.length = (cs.map fun c => (keys d c).length).sum := by
  rw [List.length_flatten, List.map_map]
  congr 1
  refine List.map_congr_left fun c h => ?_
  simp [C91_notes d fit c (hc c h)]

/-- The margins of a contrast after the last round. -/
theorem last_margins (d fit : Table α) (hd : ∀ m, 0 ≤ d.wt m) (hf : ∀ m, 0 ≤ fit.wt m) (pre post : List (List ℕ)) (c : List ℕ) (hc : ∀ x ∈ pre ++ c :: post, x ≠ [])
    (tol : ℝ) (maxit : ℕ) (hm : 1 ≤ maxit) :
    ∃ D : ℝ, 0 ≤ D ∧ ((rounds ((pre ++ c :: post).map (notes d fit)) tol maxit 1 (start d fit)).2 < 1 + maxit → D < tol) ∧
    ∀ ks ∈ keys d c, |fitTotal fit (cLoglin d fit (pre ++ c :: post) tol maxit).1 c ks - marginTotal d c ks| ≤ (post.map fun x => (keys d x).length).sum * D ∨
      ∀ m ∈ rowsWith fit c ks, (cLoglin d fit (pre ++ c :: post) tol maxit).1 m = 0 := by
  have hg := good_all d fit hd (pre ++ c :: post) hc
  obtain ⟨j, v, h1, h2, h3, h4, h5⟩ := rounds_last _ hg tol maxit 1 (start d fit) hm le_rfl (start_nonneg d fit hd hf) (fun h => absurd rfl h)
  have e1 : (cLoglin d fit (pre ++ c :: post) tol maxit).1 = (mainLoop (j == 1) ((pre ++ c :: post).map (notes d fit)) ⟨v, 0⟩).w := h4
  have gpre := good1_all d fit hd pre (fun x hx => hc x (by simp [hx]))
  have gpost := good1_all d fit hd post (fun x hx => hc x (by simp [hx]))
  have gc := good_notes d fit hd c (hc c (by simp))
  have split : mainLoop (j == 1) ((pre ++ c :: post).map (notes d fit)) ⟨v, 0⟩ =
      sweep (j == 1) (post.map (notes d fit)).flatten (sweep (j == 1) (notes d fit c) (sweep (j == 1) (pre.map (notes d fit)).flatten ⟨v, 0⟩)) := by
    rw [mainLoop_flatten]
    simp [sweep, List.foldl_append]
  set s1 := sweep (j == 1) (pre.map (notes d fit)).flatten ⟨v, 0⟩ with hs1
  set s2 := sweep (j == 1) (notes d fit c) s1 with hs2
  have n1 : ∀ m, 0 ≤ s1.w m := all_nonneg _ _ gpre _ h2
  have n2 : ∀ m, 0 ≤ s2.w m := sweep_nonneg _ _ gc _ n1
  have d1 : 0 ≤ s1.dev := all_dev (j == 1) _ gpre ⟨v, 0⟩
  have d2 : 0 ≤ s2.dev := d1.trans (sweep_dev _ _ gc _)
  refine ⟨(mainLoop (j == 1) ((pre ++ c :: post).map (notes d fit)) ⟨v, 0⟩).dev, ?_, h5, ?_⟩
  · rw [split]; exact d2.trans (all_dev _ _ gpost _)
  intro ks hks
  rw [e1, split]
  have hnt : (⟨rowsWith fit c ks, marginTotal d c ks⟩ : Note) ∈ notes d fit c := by
    rw [C91_notes d fit c (hc c (by simp))]
    exact List.mem_map.2 ⟨ks, hks, rfl⟩
  have g1 := gc.one _ hnt
  rcases sweep_margins (j == 1) (notes d fit c) gc s1 n1 (by
      intro hj nt hnt' ht m hm'
      refine all_zero _ _ gpre ⟨v, 0⟩ m ?_
      exact h3 (by simpa using hj) (notes d fit c) (List.mem_map.2 ⟨c, by simp, rfl⟩) nt hnt' ht m hm') _ hnt with h | ⟨_, h⟩
  · left
    have hl := all_l1 (j == 1) _ gpost s2 n2 d2
    rw [length_flatten_notes d fit post (fun x hx => hc x (by simp [hx]))] at hl
    have := S_diff _ g1 (sweep (j == 1) (post.map (notes d fit)).flatten s2).w s2.w
    rw [h] at this
    exact this.trans hl
  · right
    intro m hm'
    exact all_zero _ _ gpost _ m (h m hm')

/-- **C91 (margins).** For any margin table and any initial table with nonnegative weights, any list of contrasts (each of at least one column), any tolerance and number of rounds of at least one: for every combination of values occurring in the columns of the last contrast, the total weight of the result's cells with these values is exactly the margin table's — unless all these cells of the result are zero. -/
theorem C91_margins (d fit : Table α) (hd : ∀ m, 0 ≤ d.wt m) (hf : ∀ m, 0 ≤ fit.wt m) (cs : List (List ℕ)) (c : List ℕ) (hc : ∀ x ∈ cs ++ [c], x ≠ []) (tol : ℝ) (maxit : ℕ) (hm : 1 ≤ maxit) (ks : List α) (hk : ks ∈ keys d c) :
    fitTotal fit (cLoglin d fit (cs ++ [c]) tol maxit).1 c ks = marginTotal d c ks ∨ ∀ m ∈ rowsWith fit c ks, (cLoglin d fit (cs ++ [c]) tol maxit).1 m = 0 := by
  obtain ⟨D, _, _, h⟩ := last_margins d fit hd hf cs [] c hc tol maxit hm
  rcases h ks hk with h | h
  · left
    simp only [List.map_nil, List.sum_nil, Nat.cast_zero, zero_mul] at h
    have := abs_eq_zero.1 (le_antisymm h (abs_nonneg _))
    linarith
  · exact Or.inr h

theorem C91_nonneg (d fit : Table α) (hd : ∀ m, 0 ≤ d.wt m) (hf : ∀ m, 0 ≤ fit.wt m) (cs : List (List ℕ)) (hc : ∀ x ∈ cs, x ≠ []) (tol : ℝ) (maxit : ℕ) :
    (∀ m, 0 ≤ (cLoglin d fit cs tol maxit).1 m) ∧ ∀ m, fit.wt m = 0 → (cLoglin d fit cs tol maxit).1 m = 0 := by
  have key : ∀ (f k : ℕ) (w : ℕ → ℝ), (∀ m, 0 ≤ w m) → (∀ m, 0 ≤ (rounds (cs.map (notes d fit)) tol f k w).1 m) ∧ ∀ m, w m = 0 → (rounds (cs.map (notes d fit)) tol f k w).1 m = 0 := by
    intro f
    induction f with
    | zero => intro k w hw; exact ⟨hw, fun m h => h⟩
    | succ f ih =>
      intro k w hw
      have a := all_nonneg (k == 1) _ (good1_all d fit hd cs hc) ⟨w, 0⟩ hw
      have b := all_zero (k == 1) _ (good1_all d fit hd cs hc) ⟨w, 0⟩
      rw [← mainLoop_flatten] at a
      simp only [← mainLoop_flatten] at b
      rw [rounds]
      split
      · exact ⟨a, b⟩
      · obtain ⟨i1, i2⟩ := ih (k + 1) _ a
        exact ⟨i1, fun m h => i2 m (b m h)⟩
  obtain ⟨k1, k2⟩ := key maxit 1 (start d fit) (start_nonneg d fit hd hf)
  exact ⟨k1, fun m h => k2 m (by simp [start, h])⟩

/-- **C91 (convergence).** If some table of nonnegative weights on the cells of the initial table, zero wherever that is zero, has the margins wanted, then — however the contrasts overlap — after a number of rounds that can be given in advance the raking has stopped, and every margin of every contrast is met up to the tolerance times the number of combinations in the contrasts after it. -/
theorem C91_converges (d fit : Table α) (hd : ∀ m, 0 ≤ d.wt m) (hf : ∀ m, 0 ≤ fit.wt m) (cs : List (List ℕ)) (hc : ∀ x ∈ cs, x ≠ []) (tol : ℝ) (ht : 0 < tol)
    (p : ℕ → ℝ) (hp : ∀ m, 0 ≤ p m) (hsup : ∀ m < fit.n, start d fit m = 0 → p m = 0) (hmatch : ∀ c ∈ cs, ∀ ks ∈ keys d c, fitTotal fit p c ks = marginTotal d c ks)
    (maxit : ℕ) (hm : kl fit.n p (start d fit) < maxit * (tol ^ 2 / (2 * (2 * (∑ m ∈ range fit.n, p m) + tol)))) :
    ∀ pre c post, cs = pre ++ c :: post → ∀ ks ∈ keys d c,
      |fitTotal fit (cLoglin d fit cs tol maxit).1 c ks - marginTotal d c ks| ≤ (post.map fun x => (keys d x).length).sum * tol := by
  have hP : ∀ nts ∈ cs.map (notes d fit), ∀ nt ∈ nts, S nt p = nt.total := by
    simp only [List.mem_map]
    rintro _ ⟨c, h, rfl⟩ nt hnt
    rw [C91_notes d fit c (hc c h)] at hnt
    obtain ⟨ks, hk, rfl⟩ := List.mem_map.1 hnt
    exact hmatch c h ks hk
  obtain ⟨_, k2, k3⟩ := rounds_kl _ (good_all d fit hd cs hc) p hp hP tol ht maxit 1 (start d fit) (start_nonneg d fit hd hf) hsup
  have hm1 : 1 ≤ maxit := by
    rcases Nat.eq_zero_or_pos maxit with rfl | h
    · simp only [Nat.cast_zero, zero_mul] at hm
      exact absurd (kl_nonneg fit.n p _ hp (start_nonneg d fit hd hf) hsup) (not_le.2 hm)
    · exact h
  rintro pre c post rfl ks hks
  obtain ⟨D, hD0, hD, h⟩ := last_margins d fit hd hf pre post c hc tol maxit hm1
  have hDt := hD (k3 hm)
  have nn : (0 : ℝ) ≤ ((post.map fun x => (keys d x).length).sum : ℕ) := Nat.cast_nonneg _
  rcases h ks hks with h | h
  · exact h.trans (mul_le_mul_of_nonneg_left hDt.le nn)
  · have z : fitTotal fit (cLoglin d fit (pre ++ c :: post) tol maxit).1 c ks = 0 := by
      unfold fitTotal
      rw [List.map_congr_left h]
      simp
    have zp : fitTotal fit p c ks = 0 := by
      unfold fitTotal
      rw [List.map_congr_left (g := fun _ => 0) (fun m hm' => k2 m ((mem_rowsWith fit c ks m).1 hm').1 (h m hm'))]
      simp
    rw [z, ← hmatch c (by simp) ks hks, zp]
    simp only [sub_self, abs_zero]
    positivity

/-- **C91 (distance).** However many rounds, the result is no further, in Kullback–Leibler distance, from any table with the margins than the initial table (scaled to the margin table's total) was. -/
theorem C91_distance (d fit : Table α) (hd : ∀ m, 0 ≤ d.wt m) (hf : ∀ m, 0 ≤ fit.wt m) (cs : List (List ℕ)) (hc : ∀ x ∈ cs, x ≠ []) (tol : ℝ) (ht : 0 < tol)
    (p : ℕ → ℝ) (hp : ∀ m, 0 ≤ p m) (hsup : ∀ m < fit.n, start d fit m = 0 → p m = 0) (hmatch : ∀ c ∈ cs, ∀ ks ∈ keys d c, fitTotal fit p c ks = marginTotal d c ks) (maxit : ℕ) :
    kl fit.n p (cLoglin d fit cs tol maxit).1 ≤ kl fit.n p (start d fit) := by
  have hP : ∀ nts ∈ cs.map (notes d fit), ∀ nt ∈ nts, S nt p = nt.total := by
    simp only [List.mem_map]
    rintro _ ⟨c, h, rfl⟩ nt hnt
    rw [C91_notes d fit c (hc c h)] at hnt
    obtain ⟨ks, hk, rfl⟩ := List.mem_map.1 hnt
    exact hmatch c h ks hk
  exact (rounds_kl _ (good_all d fit hd cs hc) p hp hP tol ht maxit 1 (start d fit) (start_nonneg d fit hd hf) hsup).1

/-- **C91 (error).** If the result is marked with the error 'c' ("maximum number of iterations reached"), the raking has in fact met the tolerance. -/
theorem C91_error (d fit : Table α) (hd : ∀ m, 0 ≤ d.wt m) (hf : ∀ m, 0 ≤ fit.wt m) (pre post : List (List ℕ)) (c : List ℕ) (hc : ∀ x ∈ pre ++ c :: post, x ≠ []) (tol : ℝ) (maxit : ℕ) (hm : 1 ≤ maxit)
    (he : (cLoglin d fit (pre ++ c :: post) tol maxit).2 = true) (ks : List α) (hk : ks ∈ keys d c) :
    |fitTotal fit (cLoglin d fit (pre ++ c :: post) tol maxit).1 c ks - marginTotal d c ks| ≤ (post.map fun x => (keys d x).length).sum * tol ∨
      ∀ m ∈ rowsWith fit c ks, (cLoglin d fit (pre ++ c :: post) tol maxit).1 m = 0 := by
  obtain ⟨D, _, hD, h⟩ := last_margins d fit hd hf pre post c hc tol maxit hm
  have e : (rounds ((pre ++ c :: post).map (notes d fit)) tol maxit 1 (start d fit)).2 = maxit := by
    simpa [cLoglin] using he
  have nn : (0 : ℝ) ≤ ((post.map fun x => (keys d x).length).sum : ℕ) := Nat.cast_nonneg _
  rcases h ks hk with h | h
  · exact Or.inl (h.trans (mul_le_mul_of_nonneg_left (hD (by omega)).le nn))
  · exact Or.inr h

/-! ## Margins already met -/

theorem all_fixed {n : ℕ} (first : Bool) : ∀ (nts : List Note), (∀ nt ∈ nts, Good1 n nt) → ∀ w : ℕ → ℝ, (∀ nt ∈ nts, S nt w = nt.total) → sweep first nts ⟨w, 0⟩ = ⟨w, 0⟩ := by
  intro nts
  induction nts with
  | nil => intro _ w _; rfl
  | cons nt nts ih =>
    intro g w hw
    have e : oneSet first ⟨w, 0⟩ nt = ⟨w, 0⟩ := by
      rcases oneSet_cases first nt (g nt (by simp)).nodup ⟨w, 0⟩ with ⟨e, _⟩ | ⟨hS, e⟩
      · exact e
      · rw [e]
        have ht := hw nt (by simp)
        simp only at hS
        congr 1
        · funext m
          simp only [step]
          split
          · rw [← ht, div_self hS, mul_one]
          · rfl
        · simp [ht]
    show sweep first nts (oneSet first ⟨w, 0⟩ nt) = _
    rw [e]
    exact ih (fun a ha => g a (List.mem_cons_of_mem _ ha)) w (fun a ha => hw a (List.mem_cons_of_mem _ ha))

/-- **C91 (fixed point).** If the initial table scaled to the margin table's total has all the margins already, it is the result; it takes one round, so that it is marked with the error 'c' exactly if one round is allowed. -/
theorem C91_fixed (d fit : Table α) (hd : ∀ m, 0 ≤ d.wt m) (cs : List (List ℕ)) (hc : ∀ x ∈ cs, x ≠ []) (tol : ℝ) (ht : 0 < tol) (maxit : ℕ) (hm : 1 ≤ maxit)
    (hmatch : ∀ c ∈ cs, ∀ ks ∈ keys d c, fitTotal fit (start d fit) c ks = marginTotal d c ks) :
    cLoglin d fit cs tol maxit = (start d fit, maxit == 1) := by
  have hP : ∀ nt ∈ (cs.map (notes d fit)).flatten, S nt (start d fit) = nt.total := by
    intro nt h
    obtain ⟨l, hl, h⟩ := List.mem_flatten.1 h
    obtain ⟨c, hcc, rfl⟩ := List.mem_map.1 hl
    rw [C91_notes d fit c (hc c hcc)] at h
    obtain ⟨ks, hk, rfl⟩ := List.mem_map.1 h
    exact hmatch c hcc ks hk
  obtain ⟨f, rfl⟩ : ∃ f, maxit = f + 1 := ⟨maxit - 1, by omega⟩
  unfold cLoglin
  rw [rounds, mainLoop_flatten]
  simp only [all_fixed _ _ (good1_all d fit hd cs hc) _ hP, if_pos ht]
  congr 1
  rw [Bool.eq_iff_iff]; simp

/-! ## The form of the result -/

/-- The weights are those at the start times factors, one for each contrast, that depend on the cell's values in the contrast's columns only. -/
def LogLinear (fit : Table α) (cs : List (List ℕ)) (w0 w : ℕ → ℝ) : Prop :=
  ∃ g : ℕ → List α → ℝ, ∀ m < fit.n, w m = w0 m * ∏ j ∈ range cs.length, g j (key fit (cs.getD j []) m)

theorem logLinear_one (d fit : Table α) (hd : ∀ m, 0 ≤ d.wt m) (cs : List (List ℕ)) (first : Bool) (w0 : ℕ → ℝ) (s : St) (h : LogLinear fit cs w0 s.w) (c : List ℕ) (hc : c ∈ cs) (hne : c ≠ []) (nt : Note) (hnt : nt ∈ notes d fit c) :
    LogLinear fit cs w0 (oneSet first s nt).w := by
  have hn := (good_notes d fit hd c hne).nodup nt hnt
  rcases oneSet_cases first nt hn s with ⟨e, _⟩ | ⟨_, e⟩
  · rw [e]; exact h
  rw [e]
  obtain ⟨g, hg⟩ := h
  rw [C91_notes d fit c hne] at hnt
  obtain ⟨ks, _, rfl⟩ := List.mem_map.1 hnt
  obtain ⟨j, hj, rfl⟩ := List.getElem_of_mem hc
  set r := (⟨rowsWith fit cs[j] ks, marginTotal d cs[j] ks⟩ : Note).total / S ⟨rowsWith fit cs[j] ks, marginTotal d cs[j] ks⟩ s.w with hr
  refine ⟨fun i x => g i x * (if i = j then (if x = ks then r else 1) else 1), fun m hm => ?_⟩
  have hp : ∏ i ∈ range cs.length, (g i (key fit (cs.getD i []) m) * (if i = j then (if key fit (cs.getD i []) m = ks then r else 1) else 1)) =
      (∏ i ∈ range cs.length, g i (key fit (cs.getD i []) m)) * (if key fit cs[j] m = ks then r else 1) := by
    rw [Finset.prod_mul_distrib, Finset.prod_ite_eq' (range cs.length) j (fun i => if key fit (cs.getD i []) m = ks then r else 1), if_pos (mem_range.2 hj)]
    simp [List.getElem?_eq_getElem hj]
  rw [hp]
  simp only [step, mem_rowsWith]
  by_cases hk : key fit cs[j] m = ks
  · rw [if_pos ⟨hm, hk⟩, if_pos hk, hg m hm, ← hr]; ring
  · rw [if_neg (fun h => hk h.2), if_neg hk, hg m hm, mul_one]

/-- **C91 (log-linear).** However many rounds, and for any contrasts, the result is the initial table times factors, one for each contrast, each depending on the cell's values in that contrast's columns only: the interactions outside the contrasts are the initial table's. -/
theorem C91_loglinear (d fit : Table α) (hd : ∀ m, 0 ≤ d.wt m) (cs : List (List ℕ)) (hc : ∀ x ∈ cs, x ≠ []) (tol : ℝ) (maxit : ℕ) :
    LogLinear fit cs (start d fit) (cLoglin d fit cs tol maxit).1 := by
  have hs : ∀ (first : Bool) (l : List Note), (∀ nt ∈ l, ∃ c ∈ cs, nt ∈ notes d fit c) → ∀ s : St, LogLinear fit cs (start d fit) s.w → LogLinear fit cs (start d fit) (sweep first l s).w := by
    intro first l
    induction l with
    | nil => intro _ s h; exact h
    | cons nt l ih =>
      intro hl s h
      obtain ⟨c, hcc, hn⟩ := hl nt (by simp)
      exact ih (fun a ha => hl a (List.mem_cons_of_mem _ ha)) _ (logLinear_one d fit hd cs first _ s h c hcc (hc c hcc) nt hn)
  have hl : ∀ nt ∈ (cs.map (notes d fit)).flatten, ∃ c ∈ cs, nt ∈ notes d fit c := by
    intro nt h
    obtain ⟨l, hl, h⟩ := List.mem_flatten.1 h
    obtain ⟨c, hcc, rfl⟩ := List.mem_map.1 hl
    exact ⟨c, hcc, h⟩
  have hr : ∀ (f k : ℕ) (w : ℕ → ℝ), LogLinear fit cs (start d fit) w → LogLinear fit cs (start d fit) (rounds (cs.map (notes d fit)) tol f k w).1 := by
    intro f
    induction f with
    | zero => intro k w h; exact h
    | succ f ih =>
      intro k w h
      have a := hs (k == 1) _ hl ⟨w, 0⟩ h
      rw [← mainLoop_flatten] at a
      rw [rounds]
      split
      · exact a
      · exact ih _ _ a
  exact hr maxit 1 _ ⟨fun _ _ => 1, fun m _ => by simp⟩

/-- **C91 (cells outside).** A cell whose values are not, for any contrast, a combination of values of the margin table keeps its initial weight: the margins say nothing of it, and the total is then not the margin table's. -/
theorem C91_outside (d fit : Table α) (hd : ∀ m, 0 ≤ d.wt m) (cs : List (List ℕ)) (hc : ∀ x ∈ cs, x ≠ []) (tol : ℝ) (maxit : ℕ) (m : ℕ) (hm : ∀ c ∈ cs, key fit c m ∉ keys d c) :
    (cLoglin d fit cs tol maxit).1 m = start d fit m := by
  have hs : ∀ (first : Bool) (l : List Note), (∀ nt ∈ l, nt.elmts.Nodup ∧ m ∉ nt.elmts) → ∀ s : St, (sweep first l s).w m = s.w m := by
    intro first l
    induction l with
    | nil => intro _ s; rfl
    | cons nt l ih =>
      intro hl s
      have := ih (fun a ha => hl a (List.mem_cons_of_mem _ ha)) (oneSet first s nt)
      rw [← oneSet_other first nt (hl nt (by simp)).1 s m (hl nt (by simp)).2]
      exact this
  have hl : ∀ nt ∈ (cs.map (notes d fit)).flatten, nt.elmts.Nodup ∧ m ∉ nt.elmts := by
    intro nt h
    refine ⟨(good1_all d fit hd cs hc nt h).nodup, ?_⟩
    obtain ⟨l, hl, h⟩ := List.mem_flatten.1 h
    obtain ⟨c, hcc, rfl⟩ := List.mem_map.1 hl
    rw [C91_notes d fit c (hc c hcc)] at h
    obtain ⟨ks, hk, rfl⟩ := List.mem_map.1 h
    intro hmem
    exact hm c hcc (((mem_rowsWith fit c ks m).1 hmem).2 ▸ hk)
  have hr : ∀ (f k : ℕ) (w : ℕ → ℝ), (rounds (cs.map (notes d fit)) tol f k w).1 m = w m := by
    intro f
    induction f with
    | zero => intro k w; rfl
    | succ f ih =>
      intro k w
      have a := hs (k == 1) _ hl ⟨w, 0⟩
      rw [← mainLoop_flatten] at a
      rw [rounds]
      split
      · exact a
      · rw [ih, a]
  exact hr maxit 1 _

omit [LinearOrder α] in
/-- **C91 (start).** What the rounds start from is the initial table times one number, with the margin table's total. -/
theorem C91_start (d fit : Table α) (h : ((List.range fit.n).map fit.wt).sum ≠ 0) :
    (∃ r, ∀ m, start d fit m = fit.wt m * r) ∧ ((List.range fit.n).map (start d fit)).sum = ((List.range d.n).map d.wt).sum := by
  refine ⟨⟨_, fun m => rfl⟩, ?_⟩
  unfold start
  rw [List.sum_map_mul_right]
  field_simp

/-! ## Cases -/

/-- Margins of three cells: (0,0), (1,0) and (1,1), with weights 1, 1, 2. -/
def exD : Table ℕ := ⟨3, fun m i => ([[0, 0], [1, 0], [1, 1]].getD m []).getD i 0, fun m => [1, 1, 2].getD m 0⟩
/-- An initial table of two cells, (0,0) and (1,1). -/
def exF : Table ℕ := ⟨2, fun m i => ([[0, 0], [1, 1]].getD m []).getD i 0, fun m => [1, 1].getD m 0⟩
/-- An initial table with all four cells. -/
def exG : Table ℕ := ⟨4, fun m i => ([[0, 0], [1, 0], [1, 1], [0, 1]].getD m []).getD i 0, fun m => [3, 1, 1, 1].getD m 0⟩

theorem exD_nonneg : ∀ m, 0 ≤ exD.wt m := by
  intro m
  match m with
  | 0 | 1 | 2 => norm_num [exD]
  | m + 3 => simp [exD]

theorem ex_distinct (i : ℕ) (hi : i < 2) : distinct exD i = [0, 1] := by
  refine (distinct_lt exD i).eq_of_mem_iff (by decide) fun v => ?_
  rw [mem_distinct]
  have hn : exD.n = 3 := rfl
  interval_cases i
  · constructor
    · rintro ⟨m, hm, rfl⟩
      rw [hn] at hm
      interval_cases m <;> decide +kernel
    · intro h
      simp only [List.mem_cons, List.not_mem_nil, or_false] at h
      rcases h with rfl | rfl
      · exact ⟨0, by decide, rfl⟩
      · exact ⟨1, by decide, rfl⟩
  · constructor
    · rintro ⟨m, hm, rfl⟩
      rw [hn] at hm
      interval_cases m <;> decide +kernel
    · intro h
      simp only [List.mem_cons, List.not_mem_nil, or_false] at h
      rcases h with rfl | rfl
      · exact ⟨0, by decide, rfl⟩
      · exact ⟨2, by decide, rfl⟩
theorem ex_keys0 : keys exD [0] = [[0], [1]] := by simp [keys, ex_distinct 0 (by omega)]
theorem ex_keys1 : keys exD [1] = [[0], [1]] := by simp [keys, ex_distinct 1 (by omega)]
theorem ex_wt : exD.wt 0 = 1 ∧ exD.wt 1 = 1 ∧ exD.wt 2 = 2 ∧ exD.wt 3 = 0 := by simp [exD]
theorem ex_rows : rowsWith exF [0] [0] = [0] ∧ rowsWith exF [0] [1] = [1] ∧ rowsWith exF [1] [0] = [0] ∧ rowsWith exF [1] [1] = [1] := by decide +kernel
theorem ex_rowsD : rowsWith exD [0] [0] = [0] ∧ rowsWith exD [0] [1] = [1, 2] ∧ rowsWith exD [1] [0] = [0, 1] ∧ rowsWith exD [1] [1] = [2] := by decide +kernel

theorem ex_notes0 : notes exD exF [0] = [⟨[0], 1⟩, ⟨[1], 3⟩] := by
  rw [C91_notes _ _ _ (by simp), ex_keys0]
  simp [ex_rows, ex_rowsD, marginTotal, ex_wt]
  norm_num
theorem ex_notes1 : notes exD exF [1] = [⟨[0], 2⟩, ⟨[1], 2⟩] := by
  rw [C91_notes _ _ _ (by simp), ex_keys1]
  simp [ex_rows, ex_rowsD, marginTotal, ex_wt]
  norm_num

theorem ex_round (first : Bool) (w : ℕ → ℝ) (h0 : w 0 = 2) (h1 : w 1 = 2) :
    (mainLoop first [[⟨[0], 1⟩, ⟨[1], 3⟩], [⟨[0], 2⟩, ⟨[1], 2⟩]] ⟨w, 0⟩).w 0 = 2 ∧ (mainLoop first [[⟨[0], 1⟩, ⟨[1], 3⟩], [⟨[0], 2⟩, ⟨[1], 2⟩]] ⟨w, 0⟩).w 1 = 2 ∧
    1 ≤ (mainLoop first [[⟨[0], 1⟩, ⟨[1], 3⟩], [⟨[0], 2⟩, ⟨[1], 2⟩]] ⟨w, 0⟩).dev := by
  have one : ∀ (e : ℕ) (T : ℝ) (s : St), T ≠ 0 → s.w e ≠ 0 → oneSet first s ⟨[e], T⟩ = ⟨step ⟨[e], T⟩ s.w, max |s.w e - T| s.dev⟩ := by
    intro e T s hT hw
    rcases oneSet_cases first ⟨[e], T⟩ (by simp) s with ⟨_, h | ⟨_, h⟩⟩ | ⟨_, h⟩
    · simp [S] at h; exact absurd h hw
    · exact absurd h hT
    · rw [h]; simp [S]
  have st : ∀ (e : ℕ) (T : ℝ) (v : ℕ → ℝ) (m : ℕ), step ⟨[e], T⟩ v m = if m = e then v m * (T / v e) else v m := by
    intro e T v m; simp [step, S]
  simp only [mainLoop, sweep, List.foldl_cons, List.foldl_nil]
  rw [one 0 1 ⟨w, 0⟩ (by norm_num) (by simp [h0]), one 1 3 _ (by norm_num) (by simp [st, h1]), one 0 2 _ (by norm_num) (by simp [st, h0]), one 1 2 _ (by norm_num) (by simp [st, h1])]
  refine ⟨by simp [st, h0], by simp [st, h1]; norm_num, ?_⟩
  refine le_max_of_le_right (le_max_of_le_right (le_max_of_le_left ?_))
  simp [st, h1]; norm_num

/-- **C91 (error, refuted).** That a raking that ran out of rounds is marked with the error 'c' is false: here, for any number of rounds and any tolerance up to 1, the row totals are 2 and 2 instead of 1 and 3, and no error is set. -/
theorem C91_error_refuted (maxit : ℕ) (tol : ℝ) (ht : tol ≤ 1) :
    fitTotal exF (cLoglin exD exF [[0], [1]] tol maxit).1 [0] [0] = 2 ∧ marginTotal exD [0] [0] = 1 ∧ (cLoglin exD exF [[0], [1]] tol maxit).2 = false := by
  have hr : ∀ (f k : ℕ) (w : ℕ → ℝ), w 0 = 2 → w 1 = 2 →
      (rounds [[⟨[0], 1⟩, ⟨[1], 3⟩], [⟨[0], 2⟩, ⟨[1], 2⟩]] tol f k w).1 0 = 2 ∧ (rounds [[⟨[0], 1⟩, ⟨[1], 3⟩], [⟨[0], 2⟩, ⟨[1], 2⟩]] tol f k w).2 = k + f := by
    intro f
    induction f with
    | zero => intro k w h0 h1; exact ⟨h0, rfl⟩
    | succ f ih =>
      intro k w h0 h1
      obtain ⟨a, b, c⟩ := ex_round (k == 1) w h0 h1
      rw [rounds]
      simp only [if_neg (not_lt.2 (ht.trans c))]
      obtain ⟨i1, i2⟩ := ih (k + 1) _ a b
      exact ⟨i1, by rw [i2]; omega⟩
  have e : ([[0], [1]] : List (List ℕ)).map (notes exD exF) = [[⟨[0], 1⟩, ⟨[1], 3⟩], [⟨[0], 2⟩, ⟨[1], 2⟩]] := by simp [ex_notes0, ex_notes1]
  have s0 : start exD exF 0 = 2 := by simp [start, exD, exF, List.range_succ]; norm_num
  have s1 : start exD exF 1 = 2 := by simp [start, exD, exF, List.range_succ]; norm_num
  obtain ⟨r1, r2⟩ := hr maxit 1 _ s0 s1
  refine ⟨?_, ?_, ?_⟩
  · simp only [fitTotal, ex_rows, cLoglin, e]
    simpa using r1
  · simp [marginTotal, ex_rowsD, ex_wt]
  · simp only [cLoglin, e, r2]
    simp

/-- **C91 (error, refuted).** And a raking that met the tolerance may be marked: the margin table itself as the initial table, one round. -/
theorem C91_error_met_refuted : cLoglin exD exD [[0], [1]] 1 1 = (start exD exD, true) ∧ ∀ c ∈ [[0], [1]], ∀ ks ∈ keys exD c, fitTotal exD (start exD exD) c ks = marginTotal exD c ks := by
  have h : ∀ c ∈ [[0], [1]], ∀ ks ∈ keys exD c, fitTotal exD (start exD exD) c ks = marginTotal exD c ks := by
    intro c _ ks _
    have : start exD exD = exD.wt := by
      funext m
      have : ((List.range exD.n).map exD.wt).sum ≠ 0 := by
        simp [exD, List.range_succ]; norm_num
      simp only [start, div_self this, mul_one]
    unfold fitTotal marginTotal
    rw [this]
  exact ⟨C91_fixed exD exD exD_nonneg _ (by simp) 1 one_pos 1 le_rfl h, h⟩

/-- The case of the convergence theorem: initial weights 3, 1, 1, 1 on four cells, the wanted table 1, 1, 2, 0. -/
example : ∃ maxit : ℕ, ∀ pre c post, [[0], [1]] = pre ++ c :: post → ∀ ks ∈ keys exD c,
    |fitTotal exG (cLoglin exD exG [[0], [1]] (1/1000) maxit).1 c ks - marginTotal exD c ks| ≤ (post.map fun x => (keys exD x).length).sum * (1/1000) := by
  obtain ⟨N, hN⟩ := exists_nat_gt (kl exG.n exD.wt (start exD exG) / ((1/1000 : ℝ) ^ 2 / (2 * (2 * (∑ m ∈ range exG.n, exD.wt m) + 1/1000))))
  refine ⟨N, ?_⟩
  have hG : ∀ m, 0 ≤ exG.wt m := by
    intro m
    match m with
    | 0 | 1 | 2 | 3 => norm_num [exG]
    | m + 4 => simp [exG]
  refine C91_converges exD exG exD_nonneg hG [[0], [1]] (by simp) (1/1000) (by norm_num) exD.wt exD_nonneg ?_ ?_ N ?_
  · intro m hm h
    exfalso
    simp only [exG] at hm
    interval_cases m <;> (simp [start, exD, exG, List.range_succ] at h; norm_num at h)
  · intro c hc ks hk
    have r : rowsWith exG [0] [0] = [0, 3] ∧ rowsWith exG [0] [1] = [1, 2] ∧ rowsWith exG [1] [0] = [0, 1] ∧ rowsWith exG [1] [1] = [2, 3] := by decide +kernel
    simp only [List.mem_cons, List.not_mem_nil, or_false] at hc
    rcases hc with rfl | rfl
    · rw [ex_keys0] at hk
      simp only [List.mem_cons, List.not_mem_nil, or_false] at hk
      rcases hk with rfl | rfl <;> simp [fitTotal, marginTotal, r, ex_rowsD, ex_wt]
    · rw [ex_keys1] at hk
      simp only [List.mem_cons, List.not_mem_nil, or_false] at hk
      rcases hk with rfl | rfl <;> simp [fitTotal, marginTotal, r, ex_rowsD, ex_wt]
  · have hX : (0 : ℝ) ≤ ∑ m ∈ range exG.n, exD.wt m := Finset.sum_nonneg fun m _ => exD_nonneg m
    rwa [div_lt_iff₀ (by positivity)] at hN

/-- The case of the theorem on cells outside: a cell with the value 7. -/
example : ∀ c ∈ [[0], [1]], key (⟨1, fun _ _ => 7, fun _ => 1⟩ : Table ℕ) c 0 ∉ keys exD c := by
  intro c hc
  simp only [List.mem_cons, List.not_mem_nil, or_false] at hc
  rcases hc with rfl | rfl
  · rw [ex_keys0]; simp [key]
  · rw [ex_keys1]; simp [key]

end Apop.Rake
