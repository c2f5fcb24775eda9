import Verif.Choice.Logit
import Mathlib.Data.List.Sort
import Mathlib.Data.List.Dedup
import Mathlib.Analysis.SpecialFunctions.Pow.Real

/-! # C134, C135: preparing logit and probit models (model/apop_probit.c:32-81)

Exact arithmetic; no missing values. Category pages are found by the base of their name (apop_regression.m4.c:113-141), compared exactly. -/

namespace Apop.Choice

open Apop Real

/-- A data set as `probit_prep` sees it: the outcome's possible places (vector; column 0), their names, and the category pages: base name and table. -/
structure DS where
  vec : Option (List ℝ)
  col0 : List ℝ
  vname : Option String
  cname : Option String
  pages : List (String × List ℝ)

/-- `apop_get_factor_basename` for the vector or column 0, apop_regression.m4.c:113-133. -/
def DS.base (d : DS) : String := match d.vec with | some _ => d.vname.getD "vector" | none => d.cname.getD "column 0"

/-- The left-most column: the vector if there is one, else column 0. -/
def DS.first (d : DS) : List ℝ := match d.vec with | some v => v | none => d.col0

/-- Writing the left-most column. -/
def DS.setFirst (d : DS) (v : List ℝ) : DS := match d.vec with | some _ => { d with vec := some v } | none => { d with col0 := v }

/-- `apop_vector_unique_elements` (C83): the distinct values, sorted. -/
noncomputable def distinct (l : List ℝ) : List ℝ := l.dedup.insertionSort (· ≤ ·)

/-- `apop_data_to_factors` on the left-most column, with no category page there (C84): each value is replaced by its index in the table. -/
noncomputable def recode (t l : List ℝ) : List ℝ := l.map fun v => (t.idxOf v : ℝ)

/-- The page with that base name. -/
def findPage (ps : List (String × List ℝ)) (n : String) : Option (List ℝ) := (ps.find? fun p => p.1 == n).map Prod.snd

/-- `get_category_table`, model/apop_probit.c:32-40: the data set afterwards, and the table's vector. -/
noncomputable def getTable (d : DS) : DS × List ℝ :=
  match findPage d.pages d.base with
  | some t => (d, t)
  | none => ({ d.setFirst (recode (distinct d.first) d.first) with pages := d.pages ++ [(d.base, distinct d.first)] }, distinct d.first)

/-- `ols_shuffle`, model/apop_ols.c:97-108. -/
def shuffleFirst (d : DS) : DS :=
  match d.vec with
  | some _ => d
  | none => { d with vec := some d.col0, col0 := d.col0.map fun _ => 1, vname := d.cname.or d.vname, cname := d.cname.map fun _ => "1" }

/-- `probit_prep` as to the data, model/apop_probit.c:42-52: the data set afterwards and the table that gives the parameters' columns. -/
noncomputable def prepData (d : DS) : DS × List ℝ := (shuffleFirst (getTable d).1, (getTable d).2)

/-- The category under which the likelihood counts each observation after preparation: `get_category_table(p->data)` again, then `find_index`
(model/apop_probit.c:236, 214-215); `count` is the number of categories in the first table, one more than the parameters' columns. -/
noncomputable def countedAs (d : DS) : List (Res Nat) :=
  (getTable (prepData d).1).1.first.map fun y => findIndex y (getTable (prepData d).1).2 ((prepData d).2.length - 1)

/-! ### Lemmas -/

theorem mem_distinct (l : List ℝ) (v : ℝ) : v ∈ distinct l ↔ v ∈ l := by
  unfold distinct; rw [List.mem_insertionSort, List.mem_dedup]

theorem nodup_distinct (l : List ℝ) : (distinct l).Nodup := by
  unfold distinct; exact (List.perm_insertionSort _ _).nodup_iff.mpr (List.nodup_dedup l)

theorem sorted_distinct (l : List ℝ) : (distinct l).Pairwise (· ≤ ·) := by
  unfold distinct; exact List.pairwise_insertionSort _ _

/-- The codes: 0, 1, …, n−1. -/
noncomputable def codes (n : Nat) : List ℝ := (List.range n).map fun i : ℕ => (i : ℝ)

theorem codes_getElem? (n i : Nat) (h : i < n) : (codes n)[i]? = some (i : ℝ) := by simp [codes, h]

theorem nodup_codes (n : Nat) : (codes n).Nodup := by
  unfold codes; exact List.nodup_range.map Nat.cast_injective

theorem distinct_eq_codes (l : List ℝ) (n : Nat) (h : ∀ v, v ∈ l ↔ ∃ i < n, v = (i : ℝ)) : distinct l = codes n := by
  have hp : (distinct l).Perm (codes n) := by
    apply (List.perm_ext_iff_of_nodup (nodup_distinct l) (nodup_codes n)).mpr
    intro v
    rw [mem_distinct, h]
    simp [codes]
    simp only [eq_comm]
  apply hp.eq_of_pairwise
  · intro a b _ _ h1 h2; exact le_antisymm h1 h2
  · exact sorted_distinct l
  · unfold codes
    rw [List.pairwise_map]
    exact List.pairwise_lt_range.imp fun h => by exact_mod_cast h.le

theorem findIndex_codes (n i : Nat) (h : i < n) : findIndex (i : ℝ) (codes n) (n - 1) = .ok i := by
  unfold findIndex
  exact findGo_found (i : ℝ) (codes n) i (codes_getElem? n i h) (nodup_codes n) (n - 1) 0 (by omega) (by omega)

theorem findIndex_table (t : List ℝ) (hd : t.Nodup) (y : ℝ) (hy : y ∈ t) : findIndex y t (t.length - 1) = .ok (t.idxOf y) := by
  have hl := List.idxOf_lt_length_iff.mpr hy
  unfold findIndex
  exact findGo_found y t (t.idxOf y) (by rw [List.getElem?_eq_getElem hl, List.getElem_idxOf hl]) hd (t.length - 1) 0 (by omega) (by omega)

theorem distinct_recode (l : List ℝ) : distinct (recode (distinct l) l) = codes (distinct l).length := by
  apply distinct_eq_codes
  intro v
  simp only [recode, List.mem_map]
  constructor
  · rintro ⟨y, hy, rfl⟩
    exact ⟨_, List.idxOf_lt_length_iff.mpr ((mem_distinct l y).mpr hy), rfl⟩
  · rintro ⟨i, hi, rfl⟩
    refine ⟨(distinct l)[i], (mem_distinct l _).mp (List.getElem_mem hi), ?_⟩
    rw [(nodup_distinct l).idxOf_getElem i hi]

theorem recode_codes (n : Nat) (l : List ℝ) (h : ∀ v ∈ l, ∃ i < n, v = (i : ℝ)) : recode (codes n) l = l := by
  unfold recode
  conv_rhs => rw [← List.map_id l]
  apply List.map_congr_left
  intro v hv
  obtain ⟨i, hi, rfl⟩ := h v hv
  have hl : i < (codes n).length := by simpa [codes] using hi
  have hg : (codes n)[i] = (i : ℝ) := by simp [codes]
  have := (nodup_codes n).idxOf_getElem i hl
  rw [hg] at this
  simp [this]

theorem findPage_last (ps : List (String × List ℝ)) (n : String) (t : List ℝ) (h : findPage ps n = none) : findPage (ps ++ [(n, t)]) n = some t := by
  unfold findPage at *
  simp only [Option.map_eq_none_iff] at h
  simp [List.find?_append, h]

theorem findPage_other (ps : List (String × List ℝ)) (n m : String) (t : List ℝ) (h : findPage ps m = none) (hn : n ≠ m) : findPage (ps ++ [(n, t)]) m = none := by
  unfold findPage at *
  simp only [Option.map_eq_none_iff] at h
  simp [List.find?_append, h, hn]

/-- The base name stays the same from the first to the second look for the table: there is a vector, or the first column is named. -/
def SameName (d : DS) : Prop := d.vec.isSome = true ∨ d.cname.isSome = true

theorem base_shuffle (d : DS) (h : SameName d) : (shuffleFirst d).base = d.base := by
  unfold shuffleFirst DS.base
  rcases h with h | h
  · obtain ⟨v, hv⟩ := Option.isSome_iff_exists.mp h
    simp [hv]
  · obtain ⟨c, hc⟩ := Option.isSome_iff_exists.mp h
    cases hv : d.vec <;> simp [hc, hv]

theorem first_shuffle (d : DS) : (shuffleFirst d).first = d.first := by
  unfold shuffleFirst DS.first; cases hv : d.vec <;> simp [hv]

theorem pages_shuffle (d : DS) : (shuffleFirst d).pages = d.pages := by
  unfold shuffleFirst; cases hv : d.vec <;> simp

theorem base_setFirst (d : DS) (v : List ℝ) (p : List (String × List ℝ)) : ({ d.setFirst v with pages := p } : DS).base = d.base := by
  unfold DS.setFirst DS.base; cases hv : d.vec <;> simp

theorem first_setFirst (d : DS) (v : List ℝ) (p : List (String × List ℝ)) : ({ d.setFirst v with pages := p } : DS).first = v := by
  unfold DS.setFirst DS.first; cases hv : d.vec <;> simp [hv]

theorem sameName_setFirst (d : DS) (v : List ℝ) (p : List (String × List ℝ)) (h : SameName d) : SameName ({ d.setFirst v with pages := p } : DS) := by
  unfold SameName DS.setFirst at *; cases hv : d.vec <;> simp_all

/-! ### C134 -/

/-- C134: data whose outcome already has its category page (say from `apop_data_to_factors`) are counted, each observation, under the category of its outcome in that page's table. -/
theorem C134_given_page (d : DS) (hn : SameName d) (t : List ℝ) (hp : findPage d.pages d.base = some t) (hd : t.Nodup) (hy : ∀ y ∈ d.first, y ∈ t) :
    (prepData d).2 = t ∧ (prepData d).1.first = d.first ∧ countedAs d = d.first.map fun y => .ok (t.idxOf y) := by
  have h1 : getTable d = (d, t) := by unfold getTable; rw [hp]
  have h2 : getTable (shuffleFirst d) = (shuffleFirst d, t) := by
    unfold getTable; rw [base_shuffle d hn, pages_shuffle, hp]
  refine ⟨by simp [prepData, h1], by simp [prepData, h1, first_shuffle], ?_⟩
  unfold countedAs prepData
  rw [h1]; simp only
  rw [h2]; simp only
  rw [first_shuffle]
  apply List.map_congr_left
  intro y hy'
  exact findIndex_table t hd y (hy y hy')

/-- C134: raw outcomes in an unnamed first column (no vector) are converted to factors, and each observation is counted under the category of its outcome. -/
theorem C134_raw_unnamed (d : DS) (hv : d.vec = none) (hvn : d.vname = none) (hc : d.cname = none) (hp : d.pages = []) :
    (prepData d).2 = distinct d.first ∧ countedAs d = d.first.map fun y => .ok ((distinct d.first).idxOf y) := by
  have hf : d.first = d.col0 := by simp [DS.first, hv]
  have hb : d.base = "column 0" := by simp [DS.base, hv, hc]
  have h1 : getTable d = ({ d with col0 := recode (distinct d.col0) d.col0, pages := [("column 0", distinct d.col0)] }, distinct d.col0) := by
    simp [getTable, findPage, hp, hb, hf, DS.setFirst, hv]
  refine ⟨by simp [prepData, h1, hf], ?_⟩
  unfold countedAs prepData
  rw [h1]; simp only
  have hrec : recode (codes (distinct d.col0).length) (recode (distinct d.col0) d.col0) = recode (distinct d.col0) d.col0 := by
    apply recode_codes
    intro v hv'
    simp only [recode, List.mem_map] at hv'
    obtain ⟨y, hy, rfl⟩ := hv'
    exact ⟨_, List.idxOf_lt_length_iff.mpr ((mem_distinct _ y).mpr hy), rfl⟩
  simp only [shuffleFirst, hv, hc, hvn, getTable, DS.base, findPage, DS.first, DS.setFirst, Option.or, Option.getD, List.find?, distinct_recode, hrec,
    show ("column 0" == "vector") = false by decide, Option.map]
  unfold recode
  rw [List.map_map]
  apply List.map_congr_left
  intro y hy
  exact findIndex_codes _ _ (List.idxOf_lt_length_iff.mpr ((mem_distinct _ y).mpr hy))

theorem raw_named (d : DS) (hn : SameName d) (hp : findPage d.pages d.base = none) :
    (prepData d).2 = distinct d.first ∧ countedAs d = d.first.map fun y => findIndex ((distinct d.first).idxOf y : ℝ) (distinct d.first) ((distinct d.first).length - 1) := by
  have h1 : getTable d = ({ d.setFirst (recode (distinct d.first) d.first) with pages := d.pages ++ [(d.base, distinct d.first)] }, distinct d.first) := by
    simp [getTable, hp]
  have hsn := sameName_setFirst d (recode (distinct d.first) d.first) (d.pages ++ [(d.base, distinct d.first)]) hn
  have h2 : getTable (shuffleFirst { d.setFirst (recode (distinct d.first) d.first) with pages := d.pages ++ [(d.base, distinct d.first)] }) =
      (shuffleFirst { d.setFirst (recode (distinct d.first) d.first) with pages := d.pages ++ [(d.base, distinct d.first)] }, distinct d.first) := by
    have : findPage (d.pages ++ [(d.base, distinct d.first)]) d.base = some (distinct d.first) := findPage_last _ _ _ hp
    unfold getTable
    rw [base_shuffle _ hsn, pages_shuffle, base_setFirst]
    simp only [this]
  refine ⟨by simp [prepData, h1], ?_⟩
  unfold countedAs prepData
  rw [h1]; simp only
  rw [h2]; simp only
  rw [first_shuffle, first_setFirst]
  simp [recode, Function.comp_def]

/-- C134: raw outcomes that are 0, 1, …, n−1 (all of them present) in the vector or a named first column are each counted under their own category. -/
theorem C134_raw_numbered (d : DS) (hn : SameName d) (hp : findPage d.pages d.base = none) (n : Nat) (h : ∀ v, v ∈ d.first ↔ ∃ i < n, v = (i : ℝ)) :
    (prepData d).2 = codes n ∧ countedAs d = d.first.map fun y => .ok ((codes n).idxOf y) := by
  obtain ⟨h1, h2⟩ := raw_named d hn hp
  have hd := distinct_eq_codes d.first n h
  rw [hd] at h1 h2
  refine ⟨h1, h2.trans ?_⟩
  apply List.map_congr_left
  intro y hy
  have hm : y ∈ codes n := by rw [← hd]; exact (mem_distinct _ _).mpr hy
  have hl := List.idxOf_lt_length_iff.mpr hm
  have hlen : (codes n).length = n := by simp [codes]
  rw [hlen]
  exact findIndex_codes n _ (by omega)

/-- C134 (refuted): that raw outcomes are converted for you wherever they are: outcomes 1 and 2 in the vector are counted each under the other's category. -/
theorem C134_raw_vector_refuted : countedAs ⟨some [1, 2], [], none, none, []⟩ = [.ok 1, .ok 0] ∧ ((prepData ⟨some [1, 2], [], none, none, []⟩).2 = [1, 2]) := by
  have hd : distinct [1, 2] = [1, 2] := by
    have e : ([1, 2] : List ℝ).dedup = [1, 2] := by
      rw [List.dedup_eq_self]; simp
    unfold distinct; rw [e]; simp [List.insertionSort, List.orderedInsert]
  obtain ⟨h1, h2⟩ := raw_named ⟨some [1, 2], [], none, none, []⟩ (Or.inl rfl) rfl
  have hf : (DS.first ⟨some [1, 2], [], none, none, []⟩) = [1, 2] := rfl
  rw [hf, hd] at h1 h2
  refine ⟨h2.trans ?_, h1⟩
  have i2 : ([1, 2] : List ℝ).idxOf 2 = 1 := by
    rw [List.idxOf_cons_ne _ (by norm_num)]; simp
  simp only [List.map_cons, List.map_nil, i2, List.idxOf_cons_self]
  congr 1
  · unfold findIndex; rw [findGo_absent _ _ (by norm_num) _ _ (by simp)]; simp
  · congr 1
    unfold findIndex
    rw [findGo_found _ _ 0 (by simp) (by norm_num) _ _ le_rfl (by simp)]

/-- Outcomes 3, 7, 3 in an unnamed matrix column. -/
example : countedAs ⟨none, [3, 7, 3], none, none, []⟩ = [.ok 0, .ok 1, .ok 0] := by
  have hd : distinct [3, 7, 3] = [3, 7] := by
    have e : ([3, 7, 3] : List ℝ).dedup = [7, 3] := by
      rw [List.dedup_cons_of_mem (by simp), List.dedup_cons_of_notMem (by norm_num), List.dedup_cons_of_notMem (by simp)]; simp
    unfold distinct; rw [e]; norm_num [List.insertionSort, List.orderedInsert]
  obtain ⟨h1, h2⟩ := C134_raw_unnamed ⟨none, [3, 7, 3], none, none, []⟩ rfl rfl rfl rfl
  rw [h2, show (DS.first ⟨none, [3, 7, 3], none, none, []⟩) = [3, 7, 3] from rfl, hd]
  have i7 : ([3, 7] : List ℝ).idxOf 7 = 1 := by
    rw [List.idxOf_cons_ne _ (by norm_num)]; simp
  simp [i7]

/-- A given page with codes for three text categories. -/
example : countedAs ⟨some [2, 0, 1], [], some "party", none, [("party", codes 3)]⟩ = [.ok 2, .ok 0, .ok 1] := by
  have h := (C134_given_page ⟨some [2, 0, 1], [], some "party", none, [("party", codes 3)]⟩ (Or.inl rfl) (codes 3) (by simp [findPage, DS.base]) (nodup_codes 3)
    (by intro y hy; simp [DS.first] at hy; rcases hy with rfl | rfl | rfl <;> simp [codes, List.range_succ])).2.2
  rw [h]
  have h0 := (nodup_codes 3).idxOf_getElem 0 (by simp [codes])
  have h1 := (nodup_codes 3).idxOf_getElem 1 (by simp [codes])
  have h2 := (nodup_codes 3).idxOf_getElem 2 (by simp [codes])
  have e0 : (codes 3)[0]'(by simp [codes]) = 0 := by simp [codes]
  have e1 : (codes 3)[1]'(by simp [codes]) = 1 := by simp [codes]
  have e2 : (codes 3)[2]'(by simp [codes]) = 2 := by simp [codes]
  rw [e0] at h0; rw [e1] at h1; rw [e2] at h2
  simp [DS.first, h0, h1, h2]

/-! ### C135: the starting point -/

/-- Lines 68-73 of model/apop_probit.c: the average log magnitude, zeros adding nothing. -/
noncomputable def logTotal (col : List ℝ) : ℝ := (col.foldl (fun s v => s + if v ≠ 0 then log |v| else 0) 0) / col.length

/-- The starting value of all the parameters of one column of the data, line 76. -/
noncomputable def startValue (col : List ℝ) : ℝ := exp (logTotal col)

/-- The parameters' shape and starting values, lines 49 and 66-77: one row for each data column, one column for each category after the first. -/
noncomputable def startMatrix (cats : Nat) (dataCols : List (List ℝ)) : List (List ℝ) := dataCols.map fun c => List.replicate (cats - 1) (startValue c)

theorem foldl_add (f : ℝ → ℝ) (l : List ℝ) : ∀ s, l.foldl (fun s v => s + f v) s = s + (l.map f).sum := by
  induction l with
  | nil => simp
  | cons a l ih => intro s; rw [List.foldl_cons, ih]; simp; ring

theorem logTotal_bounds (col : List ℝ) (hne : col ≠ []) (a b : ℝ) (ha : 0 < a) (h : ∀ v ∈ col, a ≤ |v| ∧ |v| ≤ b) : log a ≤ logTotal col ∧ logTotal col ≤ log b := by
  have hlen : (0 : ℝ) < col.length := by
    have := List.length_pos_iff.mpr hne; exact_mod_cast this
  unfold logTotal
  rw [foldl_add, zero_add, le_div_iff₀ hlen, div_le_iff₀ hlen]
  clear hne hlen
  induction col with
  | nil => simp
  | cons v l ih =>
    obtain ⟨i1, i2⟩ := ih fun w hw => h w (List.mem_cons_of_mem _ hw)
    obtain ⟨h1, h2⟩ := h v (by simp)
    have hv : v ≠ 0 := by intro hv; subst hv; simp at h1; linarith
    have l1 := log_le_log ha h1
    have l2 := log_le_log (by linarith) h2
    simp only [List.map_cons, List.sum_cons, List.length_cons, if_pos hv]
    push_cast
    constructor <;> nlinarith

/-- C135: if a data column has no zeros, the starting value lies between the smallest and the largest magnitude in it; a column of ones starts at one. -/
theorem C135_magnitude (col : List ℝ) (hne : col ≠ []) (a b : ℝ) (ha : 0 < a) (h : ∀ v ∈ col, a ≤ |v| ∧ |v| ≤ b) : a ≤ startValue col ∧ startValue col ≤ b := by
  obtain ⟨h1, h2⟩ := logTotal_bounds col hne a b ha h
  have hb : 0 < b := by
    obtain ⟨v, hv⟩ := List.exists_mem_of_ne_nil col hne
    have := h v hv; linarith
  unfold startValue
  exact ⟨by rw [← exp_log ha]; exact exp_le_exp.mpr h1, by rw [← exp_log hb]; exact exp_le_exp.mpr h2⟩

/-- C135: the starting value is the geometric mean of the magnitudes, each zero counted as one. -/
theorem C135_geometric (col : List ℝ) : startValue col = ((col.map fun v => if v ≠ 0 then |v| else 1).prod) ^ (1 / (col.length : ℝ)) := by
  have hpos : ∀ l : List ℝ, 0 < (l.map fun v => if v ≠ 0 then |v| else 1).prod := by
    intro l
    apply List.prod_pos
    intro x hx
    obtain ⟨v, -, rfl⟩ := List.mem_map.mp hx
    split
    · next h => exact abs_pos.mpr h
    · norm_num
  have hlog : ∀ l : List ℝ, (l.map fun v => if v ≠ 0 then log |v| else 0).sum = log (l.map fun v => if v ≠ 0 then |v| else 1).prod := by
    intro l
    induction l with
    | nil => simp
    | cons v l ih =>
      rw [List.map_cons, List.sum_cons, ih, List.map_cons, List.prod_cons, log_mul _ (hpos l).ne']
      · split <;> simp
      · split
        · next h => exact (abs_pos.mpr h).ne'
        · norm_num
  unfold startValue logTotal
  rw [foldl_add, zero_add, hlog, rpow_def_of_pos (hpos col)]
  congr 1; ring

/-- C135: the parameters have one row for each column of the data and one column for each category but the first, all positive. -/
theorem C135_shape (cats : Nat) (dataCols : List (List ℝ)) :
    (startMatrix cats dataCols).length = dataCols.length ∧ (∀ r ∈ startMatrix cats dataCols, r.length = cats - 1 ∧ ∀ v ∈ r, 0 < v) := by
  refine ⟨by simp [startMatrix], ?_⟩
  intro r hr
  obtain ⟨c, -, rfl⟩ := List.mem_map.mp hr
  refine ⟨by simp, ?_⟩
  intro v hv
  rw [List.eq_of_mem_replicate hv]; exact exp_pos _

example : startValue [4, -9, 0, 1] = 36 ^ (1 / 4 : ℝ) := by
  rw [C135_geometric]; norm_num

end Apop.Choice
