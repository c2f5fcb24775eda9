import Mathlib.Data.Finset.Sort
import Mathlib.Data.Real.Basic
import Mathlib.Algebra.BigOperators.Group.List.Basic
import Mathlib.Data.List.Basic

/-! # C91: raking. The model

`c_loglin` of apop_rake.m4.c and what it calls: the tables are in memory already, as the queries of `apop_rake` leave them. Values are numbers (no NaN, no infinities); arithmetic is exact. -/

namespace Apop.Rake
variable {α : Type} [LinearOrder α]

/-- A table: number of rows, the value in a row and column, the rows' weights. -/
structure Table (α : Type) where
  n : ℕ
  cell : ℕ → ℕ → α
  wt : ℕ → ℝ

/-- `find_val`, apop_rake.m4.c:49-54, from place `i` on; the list ends with the sentinel, an infinity. -/
def findVal (x : α) : List α → ℕ → Option ℕ
  | [], _ => none
  | v :: vs, i => if v ≤ x then (if v = x then some i else findVal x vs (i + 1)) else none

/-- One node of the index, apop_rake.m4.c:41-44. -/
structure Node (α : Type) where
  val : α
  marg : List Bool
  fit : List Bool

/-- `apop_vector_unique_elements` of column `i`, by C83: the distinct elements in order. -/
def distinct (t : Table α) (i : ℕ) : List α := ((List.range t.n).map fun m => t.cell m i).toFinset.sort (· ≤ ·)

/-- The flags of node `j` of column `i`: of the rows for which `find_val` gives `j`. `index_add_node`, apop_rake.m4.c:57-63, as called in `index_generate`, lines 83-88. -/
def flags (vals : List α) (t : Table α) (i j : ℕ) : List Bool := (List.range t.n).map fun m => decide (findVal (t.cell m i) vals 0 = some j)

/-- Column `i` of the index, `index_generate`, apop_rake.m4.c:65-90: the values are those of the margin table, in both tables the rows with the values are flagged. -/
def indexCol (d fit : Table α) (i : ℕ) : List (Node α) :=
  (List.range (distinct d i).length).filterMap fun j => (distinct d i)[j]?.map fun v => ⟨v, flags (distinct d i) d i j, flags (distinct d i) fit i j⟩

/-- All combinations of one node from each column, in the order of `value_loop` and `index_foreach`, apop_rake.m4.c:110-142 (there with counters for each column; here by recursion over the columns). -/
def combos : List (List (Node α)) → List (List (Node α))
  | [] => [[]]
  | col :: cols => col.flatMap fun nd => (combos cols).map fun rest => nd :: rest

/-- `index_get_element_list`, apop_rake.m4.c:152-159. -/
def elementList (sel : Node α → List Bool) : List (Node α) → List Bool
  | [] => []
  | nd :: nds => nds.foldl (fun d m => List.zipWith (· && ·) d (sel m)) (sel nd)

/-- The numbers of the rows flagged, in order; the loops of lines 231-233 and 235-242. -/
def flagged (d : List Bool) : List ℕ := (List.range d.length).filter fun m => d.getD m false

/-- What is noted for one combination in the first round, apop_rake.m4.c:221-245: the rows of the fit, and the margin's total. -/
structure Note where
  elmts : List ℕ
  total : ℝ

def note (d : Table α) (nds : List (Node α)) : Note :=
  ⟨flagged (elementList Node.fit nds), ((flagged (elementList Node.marg nds)).map d.wt).sum⟩

/-- The notes of a contrast, given as the list of its columns in order (`generate_margin_index`, apop_rake.m4.c:262-269). -/
def notes (d fit : Table α) (c : List ℕ) : List Note := (combos (c.map (indexCol d fit))).map (note d)

/-- The weights of the fit and `maxdev`. -/
structure St where
  w : ℕ → ℝ
  dev : ℝ

/-- One turn of the second loop of `scaling`, apop_rake.m4.c:198-201: the weight, and `out_sum`. -/
noncomputable def scaleOne (r : ℝ) (s : (ℕ → ℝ) × ℝ) (e : ℕ) : (ℕ → ℝ) × ℝ := (Function.update s.1 e (s.1 e * r), s.2 + s.1 e * r)

/-- `scaling`, apop_rake.m4.c:193-203. -/
noncomputable def scaling (nt : Note) (s : St) : St := by
  classical exact
  let fitSum := (nt.elmts.map s.w).sum
  if fitSum = 0 then s
  else
    let o := nt.elmts.foldl (scaleOne (nt.total / fitSum)) (s.w, 0)
    ⟨o.1, max |fitSum - o.2| s.dev⟩

/-- The end of `one_set_of_values`, apop_rake.m4.c:246-248. -/
noncomputable def oneSet (first : Bool) (s : St) (nt : Note) : St := by
  classical exact if nt.elmts = [] then s else if first = false ∧ nt.total = 0 then s else scaling nt s

/-- One contrast in one round. -/
noncomputable def sweep (first : Bool) (nts : List Note) (s : St) : St := nts.foldl (oneSet first) s

/-- `main_loop`, apop_rake.m4.c:252-258, on the contrasts' notes. -/
noncomputable def mainLoop (first : Bool) (cs : List (List Note)) (s : St) : St := cs.foldl (fun s nts => sweep first nts s) s

/-- The rounds, apop_rake.m4.c:314-321, from round `k`, `f` of them at most: the weights and the counter at the end. -/
noncomputable def rounds (cs : List (List Note)) (tol : ℝ) : ℕ → ℕ → (ℕ → ℝ) → (ℕ → ℝ) × ℕ
  | 0, k, w => (w, k)
  | f + 1, k, w =>
    let s := mainLoop (k == 1) cs ⟨w, 0⟩
    if s.dev < tol then (s.w, k) else rounds cs tol f (k + 1) s.w

/-- The weights at the start, apop_rake.m4.c:292-295. -/
noncomputable def start (d fit : Table α) : ℕ → ℝ := fun m => fit.wt m * (((List.range d.n).map d.wt).sum / ((List.range fit.n).map fit.wt).sum)

/-- `c_loglin`, apop_rake.m4.c:286-325: the weights of the fit, and whether it is marked with the error 'c'. The contrasts are given as lists of columns, none of them empty (an empty one is a NULL read in `value_loop`). -/
noncomputable def cLoglin (d fit : Table α) (cs : List (List ℕ)) (tol : ℝ) (maxit : ℕ) : (ℕ → ℝ) × Bool :=
  let r := rounds (cs.map (notes d fit)) tol maxit 1 (start d fit)
  (r.1, r.2 == maxit)

/-! ## Specification -/

/-- The combinations of values of a contrast that could occur: of values that occur in its columns in the margin table. -/
def keys (d : Table α) : List ℕ → List (List α)
  | [] => [[]]
  | i :: c => (distinct d i).flatMap fun v => (keys d c).map fun ks => v :: ks

/-- The values of a row in the columns of a contrast. -/
def key (t : Table α) (c : List ℕ) (m : ℕ) : List α := c.map fun i => t.cell m i

/-- The rows of a table with the given values. -/
def rowsWith (t : Table α) (c : List ℕ) (ks : List α) : List ℕ := (List.range t.n).filter fun m => decide (key t c m = ks)

/-- The margin's total. -/
def marginTotal (d : Table α) (c : List ℕ) (ks : List α) : ℝ := ((rowsWith d c ks).map d.wt).sum

/-- The fit's total at given weights. -/
def fitTotal (fit : Table α) (w : ℕ → ℝ) (c : List ℕ) (ks : List α) : ℝ := ((rowsWith fit c ks).map w).sum

/-! ## The notes are what they should be -/

theorem distinct_lt (t : Table α) (i : ℕ) : (distinct t i).Pairwise (· < ·) := Finset.sortedLT_sort _ |>.pairwise

theorem mem_distinct (t : Table α) (i : ℕ) (v : α) : v ∈ distinct t i ↔ ∃ m < t.n, t.cell m i = v := by simp [distinct]

theorem findVal_eq (x : α) : ∀ (vals : List α), vals.Pairwise (· < ·) → ∀ i j, findVal x vals i = some j ↔ i ≤ j ∧ vals[j - i]? = some x := by
  intro vals
  induction vals with
  | nil => intro _ i j; simp [findVal]
  | cons v vs ih =>
    intro hs i j
    obtain ⟨h1, h2⟩ := List.pairwise_cons.1 hs
    rw [findVal]
    by_cases hle : v ≤ x
    · rw [if_pos hle]
      by_cases he : v = x
      · rw [if_pos he]
        constructor
        · rintro ⟨⟩; simp [he]
        · rintro ⟨hij, hj⟩
          rcases Nat.eq_or_lt_of_le hij with rfl | hlt
          · rfl
          · exfalso
            obtain ⟨d, hd⟩ : ∃ d, j - i = d + 1 := ⟨j - i - 1, by omega⟩
            rw [hd, List.getElem?_cons_succ] at hj
            have := h1 x (List.mem_of_getElem? hj)
            exact absurd (he ▸ this) (lt_irrefl _)
      · rw [if_neg he, ih h2]
        constructor
        · rintro ⟨h, hj⟩
          refine ⟨by omega, ?_⟩
          rw [show j - i = (j - (i + 1)) + 1 by omega, List.getElem?_cons_succ]
          exact hj
        · rintro ⟨h, hj⟩
          rcases Nat.eq_or_lt_of_le h with rfl | hlt
          · simp at hj; exact absurd hj he
          · refine ⟨hlt, ?_⟩
            rw [show j - i = (j - (i + 1)) + 1 by omega, List.getElem?_cons_succ] at hj
            exact hj
    · rw [if_neg hle]
      simp only [reduceCtorEq, false_iff, not_and]
      intro _ hj
      have := List.mem_of_getElem? hj
      rcases List.mem_cons.1 this with rfl | h
      · exact hle le_rfl
      · exact hle (h1 x h).le

/-- A node with the flags it should have. -/
def mkNode (d fit : Table α) (i : ℕ) (v : α) : Node α := ⟨v, (List.range d.n).map fun m => decide (d.cell m i = v), (List.range fit.n).map fun m => decide (fit.cell m i = v)⟩

theorem indexCol_eq (d fit : Table α) (i : ℕ) : indexCol d fit i = (distinct d i).map (mkNode d fit i) := by
  unfold indexCol
  have key : ∀ j v, (distinct d i)[j]? = some v → (⟨v, flags (distinct d i) d i j, flags (distinct d i) fit i j⟩ : Node α) = mkNode d fit i v := by
    intro j v hj
    have hf : ∀ t : Table α, flags (distinct d i) t i j = (List.range t.n).map fun m => decide (t.cell m i = v) := by
      intro t
      unfold flags
      refine List.map_congr_left fun m _ => ?_
      rw [decide_eq_decide, findVal_eq _ _ (distinct_lt d i)]
      simp only [Nat.zero_le, true_and, Nat.sub_zero, hj, Option.some.injEq]
      exact eq_comm
    rw [hf, hf]; rfl
  apply List.ext_getElem?
  intro k
  have e : ((List.range (distinct d i).length).filterMap fun j => (distinct d i)[j]?.map fun v => (⟨v, flags (distinct d i) d i j, flags (distinct d i) fit i j⟩ : Node α)) =
      (List.range (distinct d i).length).filterMap fun j => (distinct d i)[j]?.map (mkNode d fit i) := by
    refine List.filterMap_congr fun j _ => ?_
    cases h : (distinct d i)[j]? with
    | none => rfl
    | some v => simp [key j v h]
  rw [e]
  generalize distinct d i = l
  congr 1
  induction l using List.reverseRecOn with
  | nil => rfl
  | append_singleton l x ih =>
    rw [List.length_append, List.length_singleton, List.range_succ, List.filterMap_append, List.map_append]
    congr 1
    · rw [← ih]
      refine List.filterMap_congr fun j hj => ?_
      rw [List.getElem?_append_left (List.mem_range.1 hj)]
    · simp

theorem combos_eq (d fit : Table α) (c : List ℕ) : combos (c.map (indexCol d fit)) = (keys d c).map fun ks => List.zipWith (mkNode d fit) c ks := by
  induction c with
  | nil => rfl
  | cons i c ih =>
    simp only [List.map_cons, combos, keys, ih, indexCol_eq]
    rw [List.flatMap_map, List.map_flatMap]
    congr 1
    funext v
    rw [List.map_map, List.map_map]
    rfl

theorem keys_length (d : Table α) (c : List ℕ) : ∀ ks ∈ keys d c, ks.length = c.length := by
  induction c with
  | nil => intro ks h; simp [keys] at h; simp [h]
  | cons i c ih =>
    intro ks h
    simp only [keys, List.mem_flatMap, List.mem_map] at h
    obtain ⟨v, _, r, hr, rfl⟩ := h
    simp [ih r hr]

theorem fold_and (n : ℕ) (cellv : ℕ → ℕ → α) (sel : Node α → List Bool) (mk : ℕ → α → Node α) (hsel : ∀ i v, sel (mk i v) = (List.range n).map fun m => decide (cellv m i = v)) :
    ∀ (c : List ℕ) (ks : List α), ks.length = c.length → ∀ f : ℕ → Bool,
      (List.zipWith mk c ks).foldl (fun d m => List.zipWith (· && ·) d (sel m)) ((List.range n).map f) = (List.range n).map fun m => f m && decide ((c.map fun i => cellv m i) = ks) := by
  intro c
  induction c with
  | nil =>
    intro ks h f
    have : ks = [] := by simpa using h
    subst this
    simp
  | cons i c ih =>
    intro ks h f
    cases ks with
    | nil => simp at h
    | cons v ks =>
      simp only [List.zipWith_cons_cons, List.foldl_cons, hsel, List.zipWith_map, List.zipWith_self]
      rw [ih ks (by simpa using h)]
      refine List.map_congr_left fun m _ => ?_
      simp [Bool.and_assoc]

theorem elementList_eq (n : ℕ) (cellv : ℕ → ℕ → α) (sel : Node α → List Bool) (mk : ℕ → α → Node α) (hsel : ∀ i v, sel (mk i v) = (List.range n).map fun m => decide (cellv m i = v)) (c : List ℕ) (hc : c ≠ []) (ks : List α) (h : ks.length = c.length) :
    elementList sel (List.zipWith mk c ks) = (List.range n).map fun m => decide ((c.map fun i => cellv m i) = ks) := by
  cases c with
  | nil => exact absurd rfl hc
  | cons i c =>
    cases ks with
    | nil => simp at h
    | cons v ks =>
      simp only [List.zipWith_cons_cons, elementList, hsel]
      rw [fold_and n cellv sel mk hsel c ks (by simpa using h)]
      refine List.map_congr_left fun m _ => ?_
      simp

theorem flagged_map (n : ℕ) (f : ℕ → Bool) : flagged ((List.range n).map f) = (List.range n).filter f := by
  unfold flagged
  simp only [List.length_map, List.length_range]
  refine List.filter_congr fun m hm => ?_
  simp [List.getD_eq_getElem?_getD, List.mem_range.1 hm]

/-- **C91 (index).** For any tables and any contrast (of at least one column), what is noted, for every combination of values occurring in the contrast's columns of the margin table, is exactly the rows of the fit with these values and the total weight of the rows of the margin table with them. -/
theorem C91_notes (d fit : Table α) (c : List ℕ) (hc : c ≠ []) : notes d fit c = (keys d c).map fun ks => ⟨rowsWith fit c ks, marginTotal d c ks⟩ := by
  unfold notes
  rw [combos_eq, List.map_map]
  refine List.map_congr_left fun ks hk => ?_
  have hl := keys_length d c ks hk
  simp only [Function.comp, note]
  rw [elementList_eq fit.n fit.cell Node.fit (mkNode d fit) (fun _ _ => rfl) c hc ks hl, elementList_eq d.n d.cell Node.marg (mkNode d fit) (fun _ _ => rfl) c hc ks hl, flagged_map, flagged_map]
  rfl

/-- Every row of the margin table is of one of the combinations. -/
theorem key_mem (d : Table α) (c : List ℕ) (m : ℕ) (h : m < d.n) : key d c m ∈ keys d c := by
  induction c with
  | nil => simp [key, keys]
  | cons i c ih =>
    simp only [key, keys, List.map_cons, List.mem_flatMap, List.mem_map]
    exact ⟨d.cell m i, (mem_distinct d i _).2 ⟨m, h, rfl⟩, _, ih, rfl⟩

theorem keys_nodup (d : Table α) (c : List ℕ) : (keys d c).Nodup := by
  induction c with
  | nil => simp [keys]
  | cons i c ih =>
    rw [keys, List.nodup_flatMap]
    refine ⟨fun v _ => ih.map fun a b h => by simpa using h, ?_⟩
    refine (distinct_lt d i).imp ?_
    intro a b hab
    simp only [Function.onFun, List.disjoint_left, List.mem_map]
    rintro _ ⟨x, _, rfl⟩ ⟨y, _, h⟩
    have : b = a := by simpa using (List.cons.inj h).1
    exact absurd (this ▸ hab) (lt_irrefl _)

end Apop.Rake
