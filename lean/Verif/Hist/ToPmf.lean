import Verif.Pmf.Prob

/-! # C213: `apop_model_to_pmf` (apop_hist.m4.c:29-43)

The draws are those of `apop_model_draws` (C50), as rows; the bins `apop_data_to_bins` puts them into, C93, are any function, which may depend on all draws (without a specification the bins are made from the data). Arithmetic of the probabilities is exact. -/

namespace Apop.Pmf.FromModel
open Apop.Pmf

/-- `apop_data_to_bins(outd, binspec, .bin_count=bin_count)`, apop_hist.m4.c:39 and 324-355: every row goes to its bin. The output has weights only if the input has (line 353), and draws have none. -/
def toBins (place : List Row → Row → Row) (draws : List Row) (weights : Option (List ℝ)) : List Row × Option (List ℝ) :=
  (draws.map (place draws), weights)

/-- `apop_vector_normalize(outbinned->weights)`, apop_hist.m4.c:41, apop_stats.m4.c:268-270 and 293-297: for a NULL vector, nothing; otherwise each element is divided by the sum. -/
noncomputable def normalizeWeights : Option (List ℝ) → Option (List ℝ)
  | none => none
  | some ws => some (ws.map (· / ws.sum))

/-- `apop_model_to_pmf`, apop_hist.m4.c:29-43, from the draws: the model `apop_estimate(outbinned, apop_pmf)` makes, model/apop_pmf.c:79-90. -/
noncomputable def toPmf (place : List Row → Row → Row) (draws : List Row) : Model :=
  let b := toBins place draws none
  ⟨b.1, normalizeWeights b.2⟩

/-- `apop_data_pmf_compress` on the model's data. -/
noncomputable def compressed (m : Model) : Model := ⟨(compress m.rows m.weights).map Prod.fst, some ((compress m.rows m.weights).map Prod.snd)⟩

/-- How many draws are in the bin `r`. -/
def inBin (place : List Row → Row → Row) (draws : List Row) (r : Row) : ℕ := (draws.filter fun x => place draws x = r).length

theorem count_inBin (place : List Row → Row → Row) (draws : List Row) (r : Row) : (draws.map (place draws)).count r = inBin place draws r := by
  unfold inBin
  rw [List.count, List.countP_map, List.countP_eq_length_filter]
  congr 1

theorem toPmf_ok (place : List Row → Row → Row) (draws : List Row) (h : draws ≠ []) : (toPmf place draws).Ok where
  nonempty := by simpa [toPmf, toBins] using h
  len := by intro ws h; simp [toPmf, toBins, normalizeWeights] at h
  nonneg := by intro ws h; simp [toPmf, toBins, normalizeWeights] at h
  total := by intro ws h; simp [toPmf, toBins, normalizeWeights] at h

theorem prob_eq (place : List Row → Row → Row) (draws : List Row) (r : Row) : (toPmf place draws).prob r = (inBin place draws r : ℝ) / draws.length := by
  have := mass_ones (draws.map (place draws)) r
  simp only [toPmf, toBins, normalizeWeights, Model.prob, Model.table, Model.totalWeight, startWeights]
  rw [this, count_inBin]
  simp

/-- Were there weights, they would be normalised: in the same proportions, with a sum of one. -/
theorem C213_normalize (ws : List ℝ) (h : ws.sum ≠ 0) :
    ∃ vs, normalizeWeights (some ws) = some vs ∧ vs.length = ws.length ∧ vs.sum = 1 ∧ ∀ (i : ℕ) (w : ℝ), ws[i]? = some w → ∃ v, vs[i]? = some v ∧ v * ws.sum = w := by
  refine ⟨ws.map (· / ws.sum), rfl, by simp, ?_, fun i w hw => ⟨w / ws.sum, by simp [hw], div_mul_cancel₀ w h⟩⟩
  have : ∀ (c : ℝ) (l : List ℝ), (l.map (· / c)).sum = l.sum / c := by
    intro c l
    induction l with
    | nil => simp
    | cons a l ih => rw [List.map_cons, List.sum_cons, List.sum_cons, ih, add_div]
  rw [this, div_self h]

example : ([1, 3] : List ℝ).sum ≠ 0 := by norm_num

/-- **The data**: a row for each draw, in order, the bin it is in. -/
theorem C213_rows (place : List Row → Row → Row) (draws : List Row) :
    (toPmf place draws).rows.length = draws.length ∧ ∀ i : ℕ, (toPmf place draws).rows[i]? = (draws[i]?).map (place draws) := by
  simp [toPmf, toBins]

/-- **The probabilities, compressed**: after `apop_data_pmf_compress` every bin that holds a draw is there once, and `apop_p` of any point is the portion of the draws in that bin; of a set, the product. The portions sum to one. -/
theorem C213_portions (place : List Row → Row → Row) (draws : List Row) (h : draws ≠ []) :
    (compressed (toPmf place draws)).rows.Nodup ∧ (∀ r, r ∈ (compressed (toPmf place draws)).rows ↔ 0 < inBin place draws r) ∧
      (∀ d, pmfP (compressed (toPmf place draws)) d = (d.map fun r => (inBin place draws r : ℝ) / draws.length).prod) ∧
      ((compressed (toPmf place draws)).rows.map fun r => pmfP (compressed (toPmf place draws)) [r]).sum = 1 := by
  have ok := toPmf_ok place draws h
  obtain ⟨h1, h2⟩ := C62_rows (toPmf place draws).rows (toPmf place draws).weights ok.len
  have hp : ∀ d, pmfP (compressed (toPmf place draws)) d = (d.map fun r => (inBin place draws r : ℝ) / draws.length).prod := by
    intro d
    rw [compressed, C65_compressed _ ok]
    congr 1
    apply List.map_congr_left
    intro r _
    exact prob_eq place draws r
  refine ⟨h1, fun r => ?_, hp, ?_⟩
  · rw [compressed]
    refine (h2 r).trans ?_
    rw [← count_inBin, List.count_pos_iff]
    rfl
  · have hs := C65_sum_one _ ok
    have hf : (compressed (toPmf place draws)).rows = firsts (toPmf place draws).rows := by
      rw [compressed, C62_compress _ _ ok.len, List.map_map]
      exact List.map_id _
    rw [hf, ← hs]
    congr 1
    apply List.map_congr_left
    intro r _
    rw [hp, prob_eq]
    simp

/-- The documentation says that the weights are normalised to sum to one. There are none. -/
theorem C213_weights_refuted (place : List Row → Row → Row) (draws : List Row) : (toPmf place draws).weights = none := rfl

/-- As it is returned, the model gives every bin that holds a draw the probability of a single draw, however many it holds: right only for a bin with one draw. -/
theorem C213_uncompressed_refuted (place : List Row → Row → Row) (draws : List Row) (r : Row) (h : 0 < inBin place draws r) :
    pmfP (toPmf place draws) [r] = 1 / draws.length ∧ (pmfP (toPmf place draws) [r] = (inBin place draws r : ℝ) / draws.length ↔ inBin place draws r = 1) := by
  have hr : r ∈ (toPmf place draws).rows := by
    rw [← count_inBin, List.count_pos_iff] at h
    exact h
  have hv : pmfP (toPmf place draws) [r] = 1 / draws.length := by
    cases hf : findIn r (toPmf place draws).rows with
    | none => exact absurd hr (findIn_none.1 hf)
    | some i =>
      rw [pmfP, pLoop, hf]
      simp [pLoop, rowMass, toPmf, toBins, normalizeWeights]
  refine ⟨hv, ?_⟩
  have hn : (draws.length : ℝ) ≠ 0 := by
    have : draws ≠ [] := by
      rintro rfl
      simp [inBin] at h
    simpa using this
  rw [hv, div_left_inj' hn]
  constructor
  · intro e
    exact_mod_cast e.symm
  · intro e
    rw [e]
    simp

/-! A case: three draws, two of them in one bin. -/

/-- A row with a number in its vector. -/
def at_ (q : ℚ) : Row := ⟨some (.fin q), none, []⟩

/-- Bins of width one. -/
def floorBin (_ : List Row) (r : Row) : Row :=
  match r.vec with
  | some (.fin q) => at_ ⌊q⌋
  | _ => r

example : inBin floorBin [at_ (1 / 2), at_ (3 / 2), at_ (1 / 3)] (at_ 0) = 2 ∧ inBin floorBin [at_ (1 / 2), at_ (3 / 2), at_ (1 / 3)] (at_ 1) = 1 := by decide +kernel

example : pmfP (compressed (toPmf floorBin [at_ (1 / 2), at_ (3 / 2), at_ (1 / 3)])) [at_ 0] = 2 / 3 ∧ pmfP (toPmf floorBin [at_ (1 / 2), at_ (3 / 2), at_ (1 / 3)]) [at_ 0] = 1 / 3 := by
  have h : inBin floorBin [at_ (1 / 2), at_ (3 / 2), at_ (1 / 3)] (at_ 0) = 2 := by decide +kernel
  rw [(C213_portions floorBin [at_ (1 / 2), at_ (3 / 2), at_ (1 / 3)] (by simp)).2.2.1, (C213_uncompressed_refuted floorBin _ _ (by rw [h]; omega)).1]
  simp only [List.map_cons, List.map_nil, List.prod_cons, List.prod_nil, h]
  norm_num

end Apop.Pmf.FromModel
