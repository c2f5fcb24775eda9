import Mathlib.Data.Real.Basic
import Mathlib.Algebra.BigOperators.Group.List.Basic
import Mathlib.Tactic.Ring
import Mathlib.Tactic.Linarith

/-! # C62: `apop_data_pmf_compress`

Weights are reals (no rounding). A data set is a list of rows, all of the same shape, each with a weight; ragged sets, with a weights vector shorter than the data, are not modelled. -/

namespace Apop.Pmf

/-- A double. Both zeros are `fin 0`. -/
inductive Dbl where
  | fin (x : ℚ)
  | pinf
  | ninf
  | nan
  deriving DecidableEq

/-- C's `==` on doubles. -/
def Dbl.ceq : Dbl → Dbl → Bool
  | .fin x, .fin y => x == y
  | .pinf, .pinf => true
  | .ninf, .ninf => true
  | _, _ => false

def Dbl.isnan : Dbl → Bool
  | .nan => true
  | _ => false

/-- The one-row view `Apop_r(d, i)`: the vector's element, the matrix's row, the text's row (`[]` if `textsize[1]` is zero). Names and weights are not looked at. -/
structure Row where
  vec : Option Dbl
  mat : Option (List Dbl)
  text : List String
  deriving DecidableEq

/-- `L != R && !(gsl_isnan(L) && gsl_isnan(R))`, model/apop_pmf.c:202-203, 212. -/
def differ (l r : Dbl) : Bool := !(l.ceq r) && !(l.isnan && r.isnan)

/-- The loop over the columns, model/apop_pmf.c:209-213. The sizes have been compared. -/
def matLoop : List Dbl → List Dbl → Bool
  | x :: l, y :: r => if differ x y then false else matLoop l r
  | _, _ => true

/-- The loop over the text, model/apop_pmf.c:219-220. -/
def textLoop : List String → List String → Bool
  | x :: l, y :: r => if x ≠ y then false else textLoop l r
  | _, _ => true

/-- model/apop_pmf.c:200-205. -/
def vecEq : Option Dbl → Option Dbl → Bool
  | some _, none => false
  | some l, some r => !differ l r
  | none, some _ => false
  | none, none => true

/-- model/apop_pmf.c:207-215. -/
def matEq : Option (List Dbl) → Option (List Dbl) → Bool
  | some _, none => false
  | some l, some r => if l.length ≠ r.length then false else matLoop l r
  | none, some _ => false
  | none, none => true

/-- model/apop_pmf.c:217-222. -/
def textEq (l r : List String) : Bool :=
  if l.length ≠ 0 then (if l.length ≠ r.length then false else textLoop l r)
  else if r.length ≠ 0 then false else true

/-- `are_equal`, model/apop_pmf.c:192-224. -/
def areEqual (l r : Row) : Bool := vecEq l.vec r.vec && matEq l.mat r.mat && textEq l.text r.text

/-- A row in the work of compressing: its weight now, and its element of `cutme`. -/
structure Entry where
  row : Row
  w : ℝ
  cut : Bool

/-- The inner loop, model/apop_pmf.c:355-363, over the rows after the subject: the subject's weight, `not_done`, and those rows with some of them cut. -/
noncomputable def inner (subject : Row) : List Entry → ℝ → Bool → ℝ × Bool × List Entry
  | [], w, nd => (w, nd, [])
  | e :: es, w, nd =>
    if e.cut then
      let r := inner subject es w nd
      (r.1, r.2.1, e :: r.2.2)
    else if areEqual subject e.row then
      let r := inner subject es (w + e.w) true
      (r.1, r.2.1, { e with cut := true } :: r.2.2)
    else
      let r := inner subject es w true
      (r.1, r.2.1, e :: r.2.2)

/-- The outer loop, model/apop_pmf.c:351-364. The list holds the rows from `i` on; `n` is `maxsize - i`. -/
noncomputable def outer : ℕ → List Entry → List Entry
  | 0, es => es
  | _ + 1, [] => []
  | n + 1, e :: es =>
    if e.cut then e :: outer n es
    else
      let r := inner e.row es e.w false
      { e with w := r.1 } :: (if r.2.1 then outer n r.2.2 else r.2.2)

/-- The weights at the start, model/apop_pmf.c:345-348: ones if there are none. -/
noncomputable def startWeights (rows : List Row) : Option (List ℝ) → List ℝ
  | some ws => ws
  | none => List.replicate rows.length 1

/-- `apop_data_pmf_compress`, model/apop_pmf.c:341-367, on a set with at least one row: the rows and weights afterwards. `apop_data_rm_rows` keeps the rows that are not marked, in order (C14). -/
noncomputable def compress (rows : List Row) (weights : Option (List ℝ)) : List (Row × ℝ) :=
  let start := rows.zip (startWeights rows weights)
  if rows.length ≤ 1 then start
  else ((outer rows.length (start.map (fun p => ⟨p.1, p.2, false⟩))).filter (fun e => !e.cut)).map (fun e => (e.row, e.w))

/-! ## Specification -/

/-- The distinct elements, in the order in which they first appear. -/
def firsts {α : Type} [DecidableEq α] : List α → List α
  | [] => []
  | x :: l => x :: (firsts l).filter (· ≠ x)

/-- The weight of all rows equal to `r`. -/
noncomputable def mass (d : List (Row × ℝ)) (r : Row) : ℝ := ((d.filter (fun p => p.1 = r)).map Prod.snd).sum

/-! ## Proofs -/

theorem ceq_iff (l r : Dbl) : differ l r = false ↔ l = r := by
  cases l <;> cases r <;> simp [differ, Dbl.ceq, Dbl.isnan]

theorem matLoop_iff : ∀ (l r : List Dbl), l.length = r.length → (matLoop l r = true ↔ l = r)
  | [], [], _ => by simp [matLoop]
  | [], _ :: _, h => by simp at h
  | _ :: _, [], h => by simp at h
  | x :: l, y :: r, h => by
    have ih := matLoop_iff l r (by simpa using h)
    rw [matLoop]
    by_cases hd : differ x y = true
    · have : x ≠ y := fun hxy => by rw [(ceq_iff x y).2 hxy] at hd; simp at hd
      simp [hd, this]
    · rw [Bool.not_eq_true] at hd
      rw [hd, if_neg Bool.false_ne_true, ih, (ceq_iff x y).1 hd]
      simp

theorem textLoop_iff : ∀ (l r : List String), l.length = r.length → (textLoop l r = true ↔ l = r)
  | [], [], _ => by simp [textLoop]
  | [], _ :: _, h => by simp at h
  | _ :: _, [], h => by simp at h
  | x :: l, y :: r, h => by
    have ih := textLoop_iff l r (by simpa using h)
    rw [textLoop]
    by_cases hd : x = y
    · simp [hd, ih]
    · simp [hd]

/-- **C62 (which rows are the same).** Two rows are taken as equal exactly if they have the same parts with the same contents, NaN being equal to NaN. -/
theorem C62_equal (l r : Row) : areEqual l r = true ↔ l = r := by
  have h1 : vecEq l.vec r.vec = true ↔ l.vec = r.vec := by
    cases l.vec <;> cases r.vec <;> simp [vecEq, ceq_iff]
  have h2 : matEq l.mat r.mat = true ↔ l.mat = r.mat := by
    cases l.mat with
    | none => cases r.mat <;> simp [matEq]
    | some a =>
      cases r.mat with
      | none => simp [matEq]
      | some b =>
        by_cases h : a.length = b.length
        · simp [matEq, h, matLoop_iff]
        · have : a ≠ b := fun e => h (by rw [e])
          simp [matEq, h, this]
  have h3 : textEq l.text r.text = true ↔ l.text = r.text := by
    unfold textEq
    by_cases h : l.text.length = r.text.length
    · by_cases h0 : l.text.length = 0
      · have e1 : l.text = [] := List.length_eq_zero_iff.1 h0
        have e2 : r.text = [] := List.length_eq_zero_iff.1 (h ▸ h0)
        simp [e1, e2]
      · rw [if_pos h0, if_neg (not_not.2 h)]
        exact textLoop_iff _ _ h
    · have : l.text ≠ r.text := fun e => h (by rw [e])
      by_cases h0 : l.text.length = 0
      · have : r.text.length ≠ 0 := fun e => h (h0.trans e.symm)
        simp only [h0, ne_eq, not_true_eq_false, if_false, this, not_false_eq_true, if_true, Bool.false_eq_true, *]
      · simp only [h0, ne_eq, not_false_eq_true, if_true, h, Bool.false_eq_true, *]
  cases l; cases r
  simp only [areEqual, Bool.and_eq_true, h1, h2, h3, Row.mk.injEq, and_assoc]

/-- The rows not yet cut. -/
noncomputable def live (es : List Entry) : List (Row × ℝ) := (es.filter (fun e => !e.cut)).map (fun e => (e.row, e.w))

theorem live_cons (e : Entry) (es : List Entry) : live (e :: es) = if e.cut then live es else (e.row, e.w) :: live es := by
  unfold live; cases h : e.cut <;> simp [h]

theorem inner_spec (s : Row) : ∀ (es : List Entry) (w : ℝ) (nd : Bool),
    (inner s es w nd).1 = w + mass (live es) s ∧
    ((inner s es w nd).2.1 = false → live es = []) ∧
    (inner s es w nd).2.2.length = es.length ∧
    live (inner s es w nd).2.2 = (live es).filter (fun p => p.1 ≠ s)
  | [], w, nd => by simp [inner, mass, live]
  | e :: es, w, nd => by
    rw [inner]
    by_cases hc : e.cut = true
    · have ih := inner_spec s es w nd
      simp only [hc, if_true]
      rw [live_cons, live_cons]
      simp only [hc, if_true, List.length_cons]
      exact ⟨ih.1, ih.2.1, by rw [ih.2.2.1], ih.2.2.2⟩
    · rw [Bool.not_eq_true] at hc
      have nd_true : ∀ (es : List Entry) (w : ℝ), (inner s es w true).2.1 = true := by
        intro es
        induction es with
        | nil => intro w; rfl
        | cons e es ih => intro w; rw [inner]; split <;> [exact ih w; split <;> exact ih _]
      by_cases he : areEqual s e.row = true
      · have ih := inner_spec s es (w + e.w) true
        have hs := (C62_equal s e.row).1 he
        simp only [hc, Bool.false_eq_true, if_false, he, if_true]
        rw [live_cons, live_cons]
        simp only [hc, Bool.false_eq_true, if_false, if_true, List.length_cons]
        refine ⟨?_, ?_, by rw [ih.2.2.1], ?_⟩
        · rw [ih.1]; simp only [mass, ← hs, List.filter_cons, decide_true, if_true, List.map_cons, List.sum_cons]; ring
        · rw [nd_true]; simp
        · rw [ih.2.2.2]; simp [← hs]
      · have ih := inner_spec s es w true
        have hs : e.row ≠ s := fun h => he ((C62_equal s e.row).2 h.symm)
        rw [Bool.not_eq_true] at he
        simp only [hc, Bool.false_eq_true, if_false, he]
        rw [live_cons, live_cons]
        simp only [hc, Bool.false_eq_true, if_false, List.length_cons]
        refine ⟨?_, ?_, by rw [ih.2.2.1], ?_⟩
        · rw [ih.1]; simp [mass, hs]
        · rw [nd_true]; simp
        · rw [ih.2.2.2]; simp [hs]

theorem firsts_filter {α : Type} [DecidableEq α] (p : α → Bool) : ∀ l : List α, firsts (l.filter p) = (firsts l).filter p
  | [] => rfl
  | x :: l => by
    have ih := firsts_filter p l
    by_cases h : p x = true
    · rw [List.filter_cons_of_pos h, firsts, firsts, List.filter_cons_of_pos h, ih, List.filter_filter, List.filter_filter]
      congr 2
      funext a
      exact Bool.and_comm _ _
    · rw [List.filter_cons_of_neg h, firsts, List.filter_cons_of_neg h, ih, List.filter_filter]
      apply List.filter_congr
      intro a _
      by_cases ha : a = x
      · simp [ha]; simpa using h
      · simp [ha]

theorem mem_firsts {α : Type} [DecidableEq α] : ∀ {l : List α} {x : α}, x ∈ firsts l ↔ x ∈ l
  | [], x => by simp [firsts]
  | y :: l, x => by
    simp only [firsts, List.mem_cons, List.mem_filter, mem_firsts (l := l), decide_eq_true_eq]
    by_cases h : x = y <;> simp [h]

theorem firsts_nodup {α : Type} [DecidableEq α] : ∀ l : List α, (firsts l).Nodup
  | [] => List.nodup_nil
  | x :: l => by
    rw [firsts, List.nodup_cons]
    exact ⟨by simp, (firsts_nodup l).filter _⟩

/-- What compressing does, as a list. -/
noncomputable def compressed (d : List (Row × ℝ)) : List (Row × ℝ) := (firsts (d.map Prod.fst)).map (fun r => (r, mass d r))

theorem compressed_cons (r : Row) (w : ℝ) (d : List (Row × ℝ)) :
    compressed ((r, w) :: d) = (r, w + mass d r) :: compressed (d.filter (fun p => p.1 ≠ r)) := by
  unfold compressed
  rw [List.map_cons, firsts, List.map_cons]
  congr 1
  · simp [mass]
  · have e : (d.filter (fun p => p.1 ≠ r)).map Prod.fst = (d.map Prod.fst).filter (· ≠ r) := by
      rw [List.filter_map]; rfl
    rw [e, firsts_filter]
    apply List.map_congr_left
    intro s hs
    have hsr : s ≠ r := by simpa using (List.mem_filter.1 hs).2
    have h1 : mass ((r, w) :: d) s = mass d s := by simp [mass, Ne.symm hsr]
    have h2 : mass (d.filter (fun p => p.1 ≠ r)) s = mass d s := by
      unfold mass
      rw [List.filter_filter]
      congr 2
      apply List.filter_congr
      intro p _
      by_cases hp : p.1 = s
      · simp [hp, hsr]
      · simp [hp]
    rw [h1, h2]

theorem outer_spec : ∀ (n : ℕ) (es : List Entry), es.length ≤ n → live (outer n es) = compressed (live es)
  | 0, es, h => by
    have : es = [] := List.length_eq_zero_iff.1 (Nat.le_zero.1 h)
    subst this; rfl
  | n + 1, [], _ => rfl
  | n + 1, e :: es, h => by
    rw [outer]
    have hlen : es.length ≤ n := by simpa using h
    by_cases hc : e.cut = true
    · simp only [hc, if_true]
      rw [live_cons, live_cons]
      simp only [hc, if_true]
      exact outer_spec n es hlen
    · rw [Bool.not_eq_true] at hc
      obtain ⟨h1, h2, h3, h4⟩ := inner_spec e.row es e.w false
      simp only [hc, Bool.false_eq_true, if_false]
      rw [live_cons, live_cons]
      simp only [hc, Bool.false_eq_true, if_false]
      rw [compressed_cons, h1, ← h4]
      congr 1
      split
      · exact outer_spec n _ (by rw [h3]; exact hlen)
      · rename_i hnd
        rw [Bool.not_eq_true] at hnd
        have := h2 hnd
        rw [h4, this]; rfl

theorem firsts_le_one {α : Type} [DecidableEq α] {l : List α} (h : l.length ≤ 1) : firsts l = l := by
  match l, h with
  | [], _ => rfl
  | [x], _ => rfl

/-- **C62 (compression).** Each distinct row is kept once, in the order of first appearance, and its weight is the sum of the weights of all rows equal to it; without weights, the number of them. -/
theorem C62_compress (rows : List Row) (weights : Option (List ℝ)) (hw : ∀ ws, weights = some ws → ws.length = rows.length) :
    compress rows weights = (firsts rows).map (fun r => (r, mass (rows.zip (startWeights rows weights)) r)) := by
  have hl : (startWeights rows weights).length = rows.length := by
    cases weights with
    | none => simp [startWeights]
    | some ws => exact hw ws rfl
  have hmap : (rows.zip (startWeights rows weights)).map Prod.fst = rows := List.map_fst_zip (by omega)
  unfold compress
  by_cases h1 : rows.length ≤ 1
  · simp only [h1, if_true]
    rw [firsts_le_one h1]
    match rows, startWeights rows weights, hl, h1 with
    | [], _, _, _ => simp
    | [r], [w], _, _ => simp [mass]
  · simp only [h1, if_false]
    change live (outer rows.length _) = _
    rw [outer_spec _ _ (by simp [hl])]
    have : live ((rows.zip (startWeights rows weights)).map (fun p => ⟨p.1, p.2, false⟩)) = rows.zip (startWeights rows weights) := by
      unfold live
      rw [List.filter_eq_self.2 (by intro e he; obtain ⟨p, _, rfl⟩ := List.mem_map.1 he; rfl), List.map_map]
      simp [Function.comp_def]
    rw [this]
    unfold compressed
    rw [hmap]

/-- **C62 (rows).** No row appears twice, and no row is lost or made up. -/
theorem C62_rows (rows : List Row) (weights : Option (List ℝ)) (hw : ∀ ws, weights = some ws → ws.length = rows.length) :
    ((compress rows weights).map Prod.fst).Nodup ∧ ∀ r, r ∈ (compress rows weights).map Prod.fst ↔ r ∈ rows := by
  rw [C62_compress rows weights hw, List.map_map]
  have : (Prod.fst ∘ fun r => (r, mass (rows.zip (startWeights rows weights)) r)) = id := rfl
  rw [this, List.map_id]
  exact ⟨firsts_nodup rows, fun r => mem_firsts⟩

theorem mass_ones (rows : List Row) (r : Row) : mass (rows.zip (List.replicate rows.length 1)) r = rows.count r := by
  induction rows with
  | nil => simp [mass]
  | cons s rows ih =>
    unfold mass at ih ⊢
    simp only [List.length_cons, List.replicate_succ, List.zip_cons_cons, List.filter_cons, List.count_cons]
    by_cases h : s = r
    · simp only [h, decide_true, if_true, List.map_cons, List.sum_cons, ih, beq_self_eq_true]; push_cast; ring
    · have : (s == r) = false := by simpa using h
      simp only [h, decide_false, Bool.false_eq_true, if_false, ih, this]; push_cast; ring

/-- **C62 (counts).** Without weights, each distinct row's weight is how often it appeared. -/
theorem C62_counts (rows : List Row) : compress rows none = (firsts rows).map (fun r => (r, (rows.count r : ℝ))) := by
  rw [C62_compress rows none (by simp)]
  simp only [startWeights, mass_ones]

theorem sum_split (d : List (Row × ℝ)) (r : Row) : mass d r + ((d.filter (fun p => p.1 ≠ r)).map Prod.snd).sum = (d.map Prod.snd).sum := by
  induction d with
  | nil => simp [mass]
  | cons p d ih =>
    unfold mass at ih ⊢
    by_cases h : p.1 = r
    · simp only [List.filter_cons, h, decide_true, if_true, List.map_cons, List.sum_cons, ne_eq, not_true_eq_false, decide_false, Bool.false_eq_true, if_false]
      simp only [ne_eq] at ih
      rw [← ih]; ring
    · simp only [List.filter_cons, h, decide_false, Bool.false_eq_true, if_false, List.map_cons, List.sum_cons, ne_eq, not_false_eq_true, decide_true, if_true]
      simp only [ne_eq] at ih
      rw [← ih]; ring

theorem compressed_total : ∀ (n : ℕ) (d : List (Row × ℝ)), d.length ≤ n → ((compressed d).map Prod.snd).sum = (d.map Prod.snd).sum
  | 0, d, h => by
    have : d = [] := List.length_eq_zero_iff.1 (Nat.le_zero.1 h)
    subst this; rfl
  | n + 1, [], _ => rfl
  | n + 1, (r, w) :: d, h => by
    rw [compressed_cons, List.map_cons, List.sum_cons, compressed_total n _ ((List.length_filter_le _ _).trans (by simpa using h)), List.map_cons, List.sum_cons,
      ← sum_split d r]
    ring

/-- **C62 (total).** The total weight does not change. -/
theorem C62_total (rows : List Row) (ws : List ℝ) (hw : ws.length = rows.length) : ((compress rows (some ws)).map Prod.snd).sum = ws.sum := by
  rw [C62_compress rows (some ws) (by intro v h; cases h; exact hw)]
  have h2 : (rows.zip ws).map Prod.fst = rows := List.map_fst_zip (by omega)
  have h3 : (rows.zip ws).map Prod.snd = ws := List.map_snd_zip (by omega)
  have := compressed_total _ (rows.zip ws) (le_refl _)
  unfold compressed at this
  rw [h2, h3] at this
  exact this

/-- **C62 (again).** Compressing a second time changes nothing. -/
theorem C62_idempotent (rows : List Row) (ws : List ℝ) (hw : ws.length = rows.length) :
    compress ((compress rows (some ws)).map Prod.fst) (some ((compress rows (some ws)).map Prod.snd)) = compress rows (some ws) := by
  obtain ⟨hnd, -⟩ := C62_rows rows (some ws) (by intro v h; cases h; exact hw)
  generalize compress rows (some ws) = c at hnd
  rw [C62_compress _ _ (by intro v h; cases h; simp)]
  have hz : (c.map Prod.fst).zip (c.map Prod.snd) = c := by
    rw [← List.zip_of_prod rfl rfl]
  simp only [startWeights, hz]
  have hf : ∀ {l : List Row}, l.Nodup → firsts l = l := by
    intro l h
    induction l with
    | nil => rfl
    | cons x l ih =>
      rw [List.nodup_cons] at h
      rw [firsts, ih h.2, List.filter_eq_self.2]
      intro a ha
      simp only [ne_eq, decide_not, Bool.not_eq_eq_eq_not, Bool.not_true, decide_eq_false_iff_not]
      rintro rfl; exact h.1 ha
  rw [hf hnd, List.map_map]
  conv_rhs => rw [← List.map_id c]
  apply List.map_congr_left
  intro p hp
  simp only [Function.comp, id]
  refine Prod.ext rfl ?_
  simp only
  clear hz hw
  induction c with
  | nil => simp at hp
  | cons q c ih =>
    rw [List.map_cons, List.nodup_cons] at hnd
    have hnone : ∀ r, r ∉ c.map Prod.fst → c.filter (fun p => p.1 = r) = [] := by
      intro r hr
      rw [List.filter_eq_nil_iff]
      intro p hp h
      exact hr (List.mem_map.2 ⟨p, hp, by simpa using h⟩)
    rcases List.mem_cons.1 hp with rfl | hp
    · simp [mass, hnone _ hnd.1]
    · have : q.1 ≠ p.1 := fun h => hnd.1 (h ▸ List.mem_map.2 ⟨p, hp, rfl⟩)
      rw [← ih hnd.2 hp]
      simp [mass, this]

/-- The documentation's example. -/
example : let d : Row := ⟨some (.fin 12), none, ["Dozen"]⟩
    let s : Row := ⟨some (.fin 1), none, ["Single"]⟩
    let p : Row := ⟨some (.fin 2), none, ["Pair"]⟩
    compress [d, s, p, p, s, s, p, p] none = [(d, 1), (s, 3), (p, 4)] := by
  intro d s p
  rw [C62_counts]
  have h1 : s ≠ d := by decide +kernel
  have h2 : p ≠ d := by decide +kernel
  have h3 : p ≠ s := by decide +kernel
  simp [firsts, h1, h2, h3, h1.symm, h2.symm, h3.symm]

end Apop.Pmf
