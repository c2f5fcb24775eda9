import Verif.Pmf.Draw
import Mathlib.Analysis.SpecialFunctions.Log.Basic

/-! # C65-C67: the mass at a point, the CDF, and the Kullback-Leibler divergence of PMFs

Exact arithmetic over the reals. -/

namespace Apop.Pmf
open Real

/-- A model made by `apop_estimate(data, apop_pmf)`, model/apop_pmf.c:78-90: the rows, the weights if any, as many as rows. `settings->total_weight` is the sum of the weights. -/
structure Model where
  rows : List Row
  weights : Option (List ℝ)

/-- Weights, if there are any, are as many as the rows, none is negative and the total is not zero. -/
structure Model.Ok (m : Model) : Prop where
  nonempty : m.rows ≠ []
  len : ∀ ws, m.weights = some ws → ws.length = m.rows.length
  nonneg : ∀ ws, m.weights = some ws → ∀ w ∈ ws, 0 ≤ w
  total : ∀ ws, m.weights = some ws → 0 < ws.sum

/-- `find_in_data`, model/apop_pmf.c:226-232: the first row that is equal; -1 is `none`. -/
def findIn (r : Row) : List Row → Option ℕ
  | [] => none
  | s :: rows => if areEqual r s then some 0 else (findIn r rows).map (· + 1)

/-- The mass given to row `i`, model/apop_pmf.c:248-250. -/
noncomputable def rowMass (m : Model) (i : ℕ) : ℝ :=
  match m.weights with
  | some ws => ws.getD i 0 / ws.sum
  | none => 1 / m.rows.length

/-- The loop of `pmf_p`, model/apop_pmf.c:245-251. -/
noncomputable def pLoop (m : Model) : List Row → ℝ → ℝ
  | [], p => p
  | r :: d, p =>
    match findIn r m.rows with
    | none => 0
    | some i => pLoop m d (p * rowMass m i)

/-- `pmf_p`, model/apop_pmf.c:234-253. -/
noncomputable def pmfP (m : Model) (d : List Row) : ℝ := pLoop m d 1

/-- `pmf_cmf`, model/apop_pmf.c:272-285. -/
noncomputable def pmfCdf (m : Model) (r : Row) : Res (Option ℝ) :=
  match findIn r m.rows with
  | none => .ok (some 0)
  | some i =>
    match m.weights with
    | none => .ok (some (i / m.rows.length))
    | some ws =>
      match setupCmf ws with
      | .ub => .ub
      | .ok none => .ok none
      | .ok (some c) => .ok (some (c.take (i + 1)).sum)

/-! ## Specification -/

/-- Row `i` with its weight; without weights each has weight 1. -/
noncomputable def Model.table (m : Model) : List (Row × ℝ) := m.rows.zip (startWeights m.rows m.weights)

/-- The total weight. -/
noncomputable def Model.totalWeight (m : Model) : ℝ := (startWeights m.rows m.weights).sum

/-- The probability of `r`: the share of the weight that is on rows equal to `r`. -/
noncomputable def Model.prob (m : Model) (r : Row) : ℝ := mass m.table r / m.totalWeight

/-- No row is given twice: `apop_data_pmf_compress` makes sets like this. -/
def Model.Distinct (m : Model) : Prop := m.rows.Nodup

/-! ## Proofs -/

theorem findIn_none {r : Row} : ∀ {l : List Row}, findIn r l = none ↔ r ∉ l
  | [] => by simp [findIn]
  | s :: l => by
    have ih := findIn_none (r := r) (l := l)
    rw [findIn]
    by_cases h : areEqual r s = true
    · have := (C62_equal r s).1 h
      rw [if_pos h]
      simp [this]
    · have : r ≠ s := fun e => h ((C62_equal r s).2 e)
      simp [h, this, ih]

theorem findIn_some {r : Row} : ∀ {l : List Row} {i : ℕ}, findIn r l = some i → l[i]? = some r ∧ ∀ j < i, l[j]? ≠ some r
  | [], i, h => by simp [findIn] at h
  | s :: l, i, h => by
    rw [findIn] at h
    by_cases he : areEqual r s = true
    · have := (C62_equal r s).1 he
      simp only [he, if_true, Option.some.injEq] at h
      subst h
      simp [this]
    · have hne : r ≠ s := fun e => he ((C62_equal r s).2 e)
      simp only [he, if_false, Option.map_eq_some_iff, Bool.false_eq_true] at h
      obtain ⟨k, hk, rfl⟩ := h
      obtain ⟨h1, h2⟩ := findIn_some hk
      refine ⟨by simpa using h1, ?_⟩
      intro j hj
      cases j with
      | zero => simpa using Ne.symm hne
      | succ j => simpa using h2 j (by omega)

theorem startWeights_length {m : Model} (ok : m.Ok) : (startWeights m.rows m.weights).length = m.rows.length := by
  cases h : m.weights with
  | none => simp [startWeights]
  | some ws => exact ok.len ws h

theorem rowMass_eq {m : Model} {i : ℕ} (hi : i < m.rows.length) : rowMass m i = (startWeights m.rows m.weights).getD i 0 / m.totalWeight := by
  unfold rowMass Model.totalWeight
  cases h : m.weights with
  | none => simp [startWeights, hi]
  | some ws => rfl

theorem mass_at {r : Row} : ∀ {rows : List Row} {ws : List ℝ} {i : ℕ}, rows.Nodup → rows.length = ws.length → rows[i]? = some r → mass (rows.zip ws) r = ws.getD i 0
  | [], _, _, _, _, h => by simp at h
  | s :: rows, [], _, _, h, _ => by simp at h
  | s :: rows, w :: ws, i, hnd, hl, hi => by
    rw [List.nodup_cons] at hnd
    cases i with
    | zero =>
      simp only [List.getElem?_cons_zero, Option.some.injEq] at hi
      subst hi
      have : (rows.zip ws).filter (fun p => p.1 = s) = [] := by
        rw [List.filter_eq_nil_iff]
        intro p hp h
        have h : p.1 = s := by simpa using h
        exact hnd.1 (h ▸ (List.of_mem_zip hp).1)
      simp [mass, this]
    | succ i =>
      simp only [List.getElem?_cons_succ] at hi
      have hmem : r ∈ rows := List.mem_of_getElem? hi
      have : s ≠ r := fun h => hnd.1 (h ▸ hmem)
      have ih := mass_at hnd.2 (by simpa using hl) hi
      rw [List.getD_cons_succ, ← ih]
      simp [mass, this]

theorem mass_absent {r : Row} {rows : List Row} {ws : List ℝ} (h : r ∉ rows) : mass (rows.zip ws) r = 0 := by
  have : (rows.zip ws).filter (fun p => p.1 = r) = [] := by
    rw [List.filter_eq_nil_iff]
    intro p hp hr
    have hr : p.1 = r := by simpa using hr
    exact h (hr ▸ (List.of_mem_zip hp).1)
  simp [mass, this]

theorem lt_of_getElem? {α : Type} {l : List α} {i : ℕ} {a : α} (h : l[i]? = some a) : i < l.length := by
  rw [List.getElem?_eq_some_iff] at h; exact h.1

/-- The mass the loop multiplies by, for each point. -/
theorem found_mass {m : Model} (ok : m.Ok) (hd : m.Distinct) (r : Row) : (match findIn r m.rows with | none => 0 | some i => rowMass m i) = m.prob r := by
  cases h : findIn r m.rows with
  | none =>
    have := findIn_none.1 h
    simp [Model.prob, Model.table, mass_absent this]
  | some i =>
    obtain ⟨h1, -⟩ := findIn_some h
    simp only
    rw [rowMass_eq (lt_of_getElem? h1), Model.prob, Model.table, mass_at hd (startWeights_length ok).symm h1]

theorem pLoop_eq {m : Model} (ok : m.Ok) (hd : m.Distinct) : ∀ (d : List Row) (p : ℝ), pLoop m d p = p * (d.map m.prob).prod
  | [], p => by simp [pLoop]
  | r :: d, p => by
    have hf := found_mass ok hd r
    rw [pLoop]
    cases h : findIn r m.rows with
    | none => rw [h] at hf; simp only at hf; simp [← hf]
    | some i => rw [h] at hf; simp only at hf; simp only [pLoop_eq ok hd d, hf, List.map_cons, List.prod_cons]; ring

/-- **C65 (likelihood).** For a PMF in which no row is given twice: the probability of a data set is the product over its rows of the row's share of the weight (without weights: one over the number of rows), zero if there is a row that is not in the PMF. -/
theorem C65_prob (m : Model) (ok : m.Ok) (hd : m.Distinct) (d : List Row) : pmfP m d = (d.map m.prob).prod := by
  rw [pmfP, pLoop_eq ok hd, one_mul]

theorem compress_ok (m : Model) (ok : m.Ok) :
    (Model.mk ((compress m.rows m.weights).map Prod.fst) (some ((compress m.rows m.weights).map Prod.snd))).Ok := by
  have hc := C62_compress m.rows m.weights ok.len
  have hsw : ∀ w ∈ startWeights m.rows m.weights, 0 ≤ w := by
    cases h : m.weights with
    | none => intro w hw; simp only [startWeights, List.mem_replicate] at hw; rw [hw.2]; exact zero_le_one
    | some ws => exact ok.nonneg ws h
  have hnn : ∀ p ∈ compress m.rows m.weights, 0 ≤ p.2 := by
    intro p hp
    rw [hc] at hp
    obtain ⟨r, -, rfl⟩ := List.mem_map.1 hp
    apply List.sum_nonneg
    intro x hx
    obtain ⟨q, hq, rfl⟩ := List.mem_map.1 hx
    exact hsw _ (List.of_mem_zip (List.mem_filter.1 hq).1).2
  have hsum : ((compress m.rows m.weights).map Prod.snd).sum = m.totalWeight := by
    rw [hc]
    have h2 : m.table.map Prod.fst = m.rows := List.map_fst_zip (by rw [startWeights_length ok])
    have h3 : m.table.map Prod.snd = startWeights m.rows m.weights := List.map_snd_zip (by rw [startWeights_length ok])
    have := compressed_total _ m.table (le_refl _)
    unfold compressed at this
    rw [h2, h3] at this
    exact this
  have hpos : 0 < m.totalWeight := by
    unfold Model.totalWeight
    cases h : m.weights with
    | none =>
      have : 0 < m.rows.length := List.length_pos_iff.2 ok.nonempty
      simpa [startWeights] using this
    | some ws => exact ok.total ws h
  refine ⟨?_, ?_, ?_, ?_⟩
  · simp only [ne_eq, List.map_eq_nil_iff]
    intro h
    rw [h] at hsum
    simp at hsum
    linarith
  · intro ws h; cases h; simp
  · intro ws h; cases h
    intro w hw
    obtain ⟨p, hp, rfl⟩ := List.mem_map.1 hw
    exact hnn p hp
  · intro ws h; cases h; rw [hsum]; exact hpos

/-- **C65 (after compressing).** After `apop_data_pmf_compress`, rows repeated or not: the probability of a point is the share of the original weight on rows equal to it. -/
theorem C65_compressed (m : Model) (ok : m.Ok) (d : List Row) :
    pmfP ⟨(compress m.rows m.weights).map Prod.fst, some ((compress m.rows m.weights).map Prod.snd)⟩ d = (d.map m.prob).prod := by
  have hrows := C62_rows m.rows m.weights ok.len
  rw [C65_prob _ (compress_ok m ok) hrows.1]
  congr 1
  apply List.map_congr_left
  intro r _
  have hc := C62_compress m.rows m.weights ok.len
  have h2 : m.table.map Prod.fst = m.rows := List.map_fst_zip (by rw [startWeights_length ok])
  have h3 : m.table.map Prod.snd = startWeights m.rows m.weights := List.map_snd_zip (by rw [startWeights_length ok])
  have hsum : ((compress m.rows m.weights).map Prod.snd).sum = m.totalWeight := by
    rw [hc]
    have := compressed_total _ m.table (le_refl _)
    unfold compressed at this
    rw [h2, h3] at this
    exact this
  unfold Model.prob Model.totalWeight Model.table
  simp only [startWeights]
  have hz : ((compress m.rows m.weights).map Prod.fst).zip ((compress m.rows m.weights).map Prod.snd) = compress m.rows m.weights := by
    rw [← List.zip_of_prod rfl rfl]
  rw [hz, hsum]
  unfold Model.totalWeight
  congr 1
  by_cases hr : r ∈ m.rows
  · obtain ⟨i, hi⟩ := List.mem_iff_getElem?.1 ((hrows.2 r).2 hr)
    have := mass_at (ws := (compress m.rows m.weights).map Prod.snd) hrows.1 (by simp) hi
    rw [hz] at this
    rw [this]
    have hi' := hi
    rw [hc, List.map_map] at hi
    have hid : (Prod.fst ∘ fun r => (r, mass (m.rows.zip (startWeights m.rows m.weights)) r)) = id := rfl
    rw [hid, List.map_id] at hi
    rw [hc, List.map_map, List.getD_eq_getElem?_getD, List.getElem?_map, hi]
    rfl
  · rw [mass_absent hr, ← hz, mass_absent (fun h => hr ((hrows.2 r).1 h))]

theorem mass_total : ∀ (d : List (Row × ℝ)), ((firsts (d.map Prod.fst)).map (mass d)).sum = (d.map Prod.snd).sum := by
  intro d
  have := compressed_total _ d (le_refl _)
  unfold compressed at this
  rw [List.map_map] at this
  exact this

/-- **C65 (sums to one).** The probabilities of the distinct rows sum to one. -/
theorem C65_sum_one (m : Model) (ok : m.Ok) : ((firsts m.rows).map m.prob).sum = 1 := by
  have h2 : m.table.map Prod.fst = m.rows := List.map_fst_zip (by rw [startWeights_length ok])
  have h3 : m.table.map Prod.snd = startWeights m.rows m.weights := List.map_snd_zip (by rw [startWeights_length ok])
  have hpos : 0 < m.totalWeight := by
    unfold Model.totalWeight
    cases h : m.weights with
    | none =>
      have : 0 < m.rows.length := List.length_pos_iff.2 ok.nonempty
      simpa [startWeights] using this
    | some ws => exact ok.total ws h
  have e : m.prob = fun r => mass m.table r * (1 / m.totalWeight) := by funext r; unfold Model.prob; ring
  rw [e, List.sum_map_mul_right]
  have := mass_total m.table
  rw [h2, h3] at this
  rw [this]
  unfold Model.totalWeight
  unfold Model.totalWeight at hpos
  field_simp

/-- With a row given twice, only the first is counted: two rows, both the same, and the probability of the only point there is is one half. -/
theorem C65_repeated (r : Row) : pmfP ⟨[r, r], none⟩ [r] = 1 / 2 := by
  have : areEqual r r = true := (C62_equal r r).2 rfl
  simp [pmfP, pLoop, findIn, this, rowMass]

/-- **C66 is false, with weights.** The CDF is documented as the mass up to the point. What is returned is the sum of the cumulative masses up to there. -/
theorem C66_weighted (m : Model) (ok : m.Ok) (ws : List ℝ) (hws : m.weights = some ws) (r : Row) (i : ℕ) (hi : findIn r m.rows = some i) :
    pmfCdf m r = .ok (some (((List.range (i + 1)).map (fun j => cumShare ws (j + 1))).sum)) := by
  have hne : ws ≠ [] := by
    intro h; have := ok.total ws hws; rw [h] at this; simp at this
  obtain ⟨c, hc, hlen, hget⟩ := (C63_cmf ws hne).2 (ok.total ws hws).ne'
  have hil : i < ws.length := by rw [ok.len ws hws]; exact lt_of_getElem? (findIn_some hi).1
  simp only [pmfCdf, hi, hws, hc]
  congr 3
  apply List.ext_getElem?
  intro j
  rw [List.getElem?_take, List.getElem?_map]
  by_cases hj : j < i + 1
  · rw [if_pos hj, hget j (by omega), List.getElem?_range hj]; rfl
  · rw [if_neg hj, List.getElem?_eq_none (by simp; omega)]; rfl

/-- So, for three rows of equal weights, the mass up to the last one is 2. -/
theorem C66_above_one : ∃ (m : Model) (r : Row), m.Ok ∧ m.Distinct ∧ pmfCdf m r = .ok (some 2) := by
  let row : ℚ → Row := fun q => ⟨some (.fin q), none, []⟩
  have h10 : row 0 ≠ row 1 := by decide +kernel
  have h20 : row 0 ≠ row 2 := by decide +kernel
  have h21 : row 1 ≠ row 2 := by decide +kernel
  have f2 : findIn (row 2) [row 0, row 1, row 2] = some 2 := by decide +kernel
  have ok : (Model.mk [row 0, row 1, row 2] (some [1, 1, 1])).Ok := by
    refine ⟨by simp, ?_, ?_, ?_⟩
    · intro ws h; cases h; rfl
    · intro ws h; cases h; intro w hw; simp at hw; rw [hw]; exact zero_le_one
    · intro ws h; cases h; norm_num
  refine ⟨_, row 2, ok, by simp [Model.Distinct, h10, h20, h21], ?_⟩
  rw [C66_weighted _ ok [1, 1, 1] rfl (row 2) 2 f2]
  norm_num [cumShare, List.range_succ]

/-- **C66 is false, without weights.** The point itself is left out: the mass up to the last of `n` rows is (n-1)/n, and up to the first it is zero. -/
theorem C66_unweighted (rows : List Row) (r : Row) (i : ℕ) (hi : findIn r rows = some i) : pmfCdf ⟨rows, none⟩ r = .ok (some ((i : ℝ) / rows.length)) := by
  simp [pmfCdf, hi]

/-- **C66 (not found).** Zero, as documented. -/
theorem C66_absent (m : Model) (r : Row) (h : r ∉ m.rows) : pmfCdf m r = .ok (some 0) := by
  simp [pmfCdf, findIn_none.2 h]

/-- **C66 (the first row, with weights).** Right for the first row only. -/
theorem C66_first (m : Model) (ok : m.Ok) (ws : List ℝ) (hws : m.weights = some ws) (r : Row) (hr : m.rows[0]? = some r) :
    pmfCdf m r = .ok (some (ws.getD 0 0 / ws.sum)) := by
  have hf : findIn r m.rows = some 0 := by
    cases hm : m.rows with
    | nil => rw [hm] at hr; simp at hr
    | cons s l =>
      rw [hm] at hr
      simp only [List.getElem?_cons_zero, Option.some.injEq] at hr
      simp [findIn, (C62_equal r s).2 hr.symm]
  rw [C66_weighted m ok ws hws r 0 hf]
  have hne : ws ≠ [] := by
    intro h; have := ok.total ws hws; rw [h] at this; simp at this
  match ws, hne with
  | w :: ws, _ => simp [cumShare]

end Apop.Pmf
