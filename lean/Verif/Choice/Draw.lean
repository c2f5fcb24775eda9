import Verif.Choice.Logit

/-! # C136: draws from a logit model (model/apop_probit.c:291-331)

Exact arithmetic. The caller's array is a list of cells, `none` for one never written. -/

namespace Apop.Choice

open Apop Real

/-- A row of a data set as a PMF's `draw` copies it, model/apop_pmf.c:179-186: the vector element if any, then — from the same counter on — the matrix row's. -/
def pmfCopy (v : Option ℝ) (m : Option (List ℝ)) : List ℝ :=
  v.toList ++ (m.getD []).drop v.toList.length

/-- The weights of the one-off PMF, model/apop_probit.c:313-321: e^0, e^(xβ₁), … scaled to sum to one. -/
noncomputable def drawWeights (cols : List (List ℝ)) (x : List ℝ) : List ℝ :=
  ((0 :: xbeta cols x).map exp).map fun w => w * (1 / (((0 :: xbeta cols x).map exp).sum))

/-- Writing consecutive cells of an array. -/
def writeAt (out : List (Option ℝ)) : Nat → List ℝ → Res (List (Option ℝ))
  | _, [] => .ok out
  | i, v :: vs => (wr out i (some v)).bind fun o => writeAt o (i + 1) vs

/-- `logit_rng`, model/apop_probit.c:303-331, after the row of the input distribution has been drawn (`yv`: its vector element; `row`: its matrix row, as many numbers as
the model's `dsize`). `apop_draw(out, r, a_pmf)` copies the row drawn from a data set with weights only, `draw_index` being 'n': nothing. -/
def logitDraw (dsize : Nat) (yv : Option ℝ) (row : List ℝ) (out : List (Option ℝ)) : Res (List (Option ℝ)) :=
  (writeAt out 0 (pmfCopy none none)).bind fun o =>
    if dsize > 1 then writeAt o 1 (pmfCopy yv (some row)) else .ok o

/-- C136 (partial): the one-off PMF from which the category is drawn has the documented choice probabilities for the inputs used as its weights.
Missing: that the category drawn is returned (`C136_unwritten_refuted`), that the caller's array is big enough (`C136_overrun_refuted`), and that the inputs are the data's (`C136_inputs_refuted`). -/
theorem C136_weights_partial (cols : List (List ℝ)) (x : List ℝ) : drawWeights cols x = (List.range (cols.length + 1)).map (choiceProb (xbeta cols x)) := by
  unfold drawWeights
  apply List.ext_getElem
  · simp [xbeta]
  · intro i h1 h2
    have hi : i < (scores (xbeta cols x)).length := by simpa [scores] using h1
    simp only [List.getElem_map, List.getElem_range, choiceProb]
    rw [List.getElem?_eq_getElem hi]
    simp [scores, div_eq_mul_inv]

theorem writeAt_head (vs : List ℝ) : ∀ (o : List (Option ℝ)) (i : Nat), 0 < i → ∀ o', writeAt o i vs = .ok o' → o'[0]? = o[0]? := by
  induction vs with
  | nil => intro o i hi o' h; simp [writeAt] at h; rw [h]
  | cons v vs ih =>
    intro o i hi o' h
    rw [writeAt] at h
    unfold wr at h
    split at h
    · simp only [Res.bind] at h
      have := ih _ (i + 1) (by omega) o' h
      rw [this, List.getElem?_set_ne (by omega)]
    · simp [Res.bind] at h

/-- C136 (refuted): that a draw returns the category drawn: the first cell of the output is never written. -/
theorem C136_unwritten_refuted (dsize : Nat) (yv : Option ℝ) (row : List ℝ) (out out' : List (Option ℝ)) (h : logitDraw dsize yv row out = .ok out') : out'[0]? = out[0]? := by
  unfold logitDraw at h
  simp only [pmfCopy, Option.toList, Option.getD, List.length_nil, List.drop_nil, List.append_nil, writeAt, Res.bind] at h
  split at h
  · exact writeAt_head _ out 1 (by omega) out' h
  · injection h with h; rw [h]

theorem writeAt_overrun (vs : List ℝ) : ∀ (o : List (Option ℝ)) (i : Nat), i ≤ o.length → o.length < i + vs.length → writeAt o i vs = .ub := by
  induction vs with
  | nil => intro o i hi h; simp at h; omega
  | cons v vs ih =>
    intro o i hi h
    simp only [List.length_cons] at h
    rw [writeAt]
    unfold wr
    split
    · next hl =>
      simp only [Res.bind]
      exact ih _ (i + 1) (by simp; omega) (by simp; omega)
    · rfl

/-- C136 (refuted): that an array of the model's draw size is enough: with two or more columns the last number is written past its end. -/
theorem C136_overrun_refuted (dsize : Nat) (hd : dsize > 1) (yv : Option ℝ) (row : List ℝ) (hr : row.length = dsize) (out : List (Option ℝ)) (ho : out.length = dsize) :
    logitDraw dsize yv row out = .ub := by
  unfold logitDraw
  simp only [pmfCopy, Option.toList, Option.getD, List.length_nil, List.drop_nil, List.append_nil, writeAt, Res.bind, if_pos hd]
  apply writeAt_overrun
  · omega
  · cases yv <;> simp <;> omega

/-- C136 (refuted): that the inputs are a row of the data: the outcome takes the place of the first input. -/
theorem C136_inputs_refuted (y a : ℝ) (row : List ℝ) : pmfCopy (some y) (some (a :: row)) = y :: row := by simp [pmfCopy]

/-- One input column: the draw "succeeds" and leaves the array as it was. -/
example : logitDraw 1 (some 1) [5] [none] = .ok [none] := by simp [logitDraw, pmfCopy, writeAt, Res.bind]

example : drawWeights [[1, 0]] [0, 3] = [1 / 2, 1 / 2] := by simp [drawWeights, xbeta, dotp]; norm_num

end Apop.Choice
