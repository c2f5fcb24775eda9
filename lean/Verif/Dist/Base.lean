import Verif.Data.Model
import Verif.Stats.Variance
import Mathlib.Analysis.SpecialFunctions.Log.Basic

/-! # Data sets as the distribution models see them

Exact arithmetic over the reals; no missing values. -/

namespace Apop.Dist
open Stats

/-- The numbers of a data set: its vector and matrix, each if it is there. -/
structure D where
  vec : Option (List ℝ)
  mat : Option (Mat ℝ)

namespace D

/-- `apop_map_sum(d, fn)` with a function of one number, as used by the models: the vector's sum plus the matrix's. That `apop_map_sum` is this for every schedule of its threads is C49. -/
noncomputable def mapSum (f : ℝ → ℝ) (d : D) : ℝ :=
  (match d.vec with | none => 0 | some v => vectorSum (v.map f)) + (match d.mat with | none => 0 | some m => matrixSum (m.rows.map (List.map f)))

/-- `vsize` of `Get_vmsizes`, apop_internal.h:10. -/
def vsize (d : D) : ℕ := match d.vec with | none => 0 | some v => v.length

/-- `msize1`, apop_internal.h:12. -/
def msize1 (d : D) : ℕ := match d.mat with | none => 0 | some m => m.size1

/-- `msize2`, apop_internal.h:13. -/
def msize2 (d : D) : ℕ := match d.mat with | none => 0 | some m => m.cols

/-- `tsize`, apop_internal.h:14. -/
def tsize (d : D) : ℕ := d.vsize + d.msize1 * d.msize2

/-- `maxsize`, apop_internal.h:15, without text. -/
def maxsize (d : D) : ℕ := max d.vsize d.msize1

/-- `(d->matrix ? apop_matrix_sum(d->matrix):0) + (d->vector ? apop_sum(d->vector) : 0)`, as at model/apop_exponential.c:37. -/
noncomputable def total (d : D) : ℝ :=
  (match d.mat with | none => 0 | some m => matrixSum m.rows) + (match d.vec with | none => 0 | some v => vectorSum v)

/-- Specification: all the numbers, vector first. -/
def cells (d : D) : List ℝ := d.vec.getD [] ++ ((d.mat.map (·.rows)).getD []).flatten

/-- The matrix is rectangular, as in GSL. -/
def WF (d : D) : Prop := ∀ m, d.mat = some m → m.WF

end D

theorem vectorSum_eq (l : List ℝ) : vectorSum l = l.sum := by
  unfold vectorSum; rw [List.sum_eq_foldl]

theorem mapSum_eq (f : ℝ → ℝ) (d : D) : d.mapSum f = (d.cells.map f).sum := by
  unfold D.mapSum D.cells
  cases d.vec <;> cases d.mat <;> simp [vectorSum_eq, matrixSum_eq, List.map_flatten]

theorem total_eq (d : D) : d.total = d.cells.sum := by
  unfold D.total D.cells
  cases d.vec <;> cases d.mat <;> simp [vectorSum_eq, matrixSum_eq, add_comm]

theorem flatten_length {m : Mat ℝ} (h : m.WF) : m.rows.flatten.length = m.size1 * m.cols := by
  rw [List.length_flatten]
  have : m.rows.map List.length = List.replicate m.rows.length m.cols := by
    apply List.eq_replicate_iff.2
    refine ⟨by simp, ?_⟩
    intro b hb
    obtain ⟨r, hr, rfl⟩ := List.mem_map.1 hb
    exact h r hr
  rw [this, List.sum_replicate, smul_eq_mul]
  rfl

theorem tsize_eq {d : D} (h : d.WF) : d.tsize = d.cells.length := by
  unfold D.tsize D.vsize D.msize1 D.msize2 D.cells
  cases hm : d.mat with
  | none => cases d.vec <;> simp
  | some m => cases d.vec <;> simp [flatten_length (h m hm)]

/-- A sum of logs is the log of the product. -/
theorem log_prod_map {f : ℝ → ℝ} : ∀ {l : List ℝ}, (∀ x ∈ l, 0 < f x) → Real.log (l.map f).prod = (l.map fun x => Real.log (f x)).sum
  | [], _ => by simp
  | x :: l, h => by
    have hx := h x (by simp)
    have hl : ∀ y ∈ l, 0 < f y := fun y hy => h y (by simp [hy])
    have hp : 0 < (l.map f).prod := List.prod_pos (by intro a ha; obtain ⟨y, hy, rfl⟩ := List.mem_map.1 ha; exact hl y hy)
    simp only [List.map_cons, List.prod_cons, List.sum_cons]
    rw [Real.log_mul hx.ne' hp.ne', log_prod_map hl]

theorem sum_map_const (c : ℝ) (l : List ℝ) : (l.map fun _ => c).sum = l.length * c := by
  induction l with
  | nil => simp
  | cons x l ih => simp only [List.map_cons, List.sum_cons, ih, List.length_cons]; push_cast; ring

theorem sum_map_add' (f g : ℝ → ℝ) (l : List ℝ) : (l.map fun x => f x + g x).sum = (l.map f).sum + (l.map g).sum := by
  induction l with
  | nil => simp
  | cons x l ih => simp only [List.map_cons, List.sum_cons, ih]; ring

theorem sum_map_mul' (c : ℝ) (f : ℝ → ℝ) (l : List ℝ) : (l.map fun x => c * f x).sum = c * (l.map f).sum := by
  induction l with
  | nil => simp
  | cons x l ih => simp only [List.map_cons, List.sum_cons, ih]; ring

theorem sum_map_congr {f g : ℝ → ℝ} {l : List ℝ} (h : ∀ x ∈ l, f x = g x) : (l.map f).sum = (l.map g).sum := by rw [List.map_congr_left h]

end Apop.Dist
