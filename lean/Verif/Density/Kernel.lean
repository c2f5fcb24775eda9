import Verif.Base.C
import Verif.Pmf.Draw
import Mathlib.Analysis.SpecialFunctions.Log.Basic
import Mathlib.MeasureTheory.Integral.Bochner.Basic
import Mathlib.Tactic.Linarith
import Mathlib.Tactic.FieldSimp
import Mathlib.Tactic.Ring

/-! # C137-C139: kernel densities (model/apop_kerneld.c)

Exact arithmetic, with minus infinity. The kernel, set around a base row, is given by its density (or CDF) at the point asked about. -/

namespace Apop.Density

open Apop Real

/-- A log likelihood: minus infinity or a number. -/
inductive LL where
  | ninf
  | fin (x : ℝ)

/-- Addition of doubles that aren't +infinity or NaN. -/
noncomputable def LL.add : LL → LL → LL
  | .fin a, .fin b => .fin (a + b)
  | _, _ => .ninf

/-- `log` of a nonnegative number. -/
noncomputable def elog (p : ℝ) : LL := if p = 0 then .ninf else .fin (log p)

/-- `lls[i]>max_ll`, model/apop_kerneld.c:130. -/
noncomputable def LL.gt : LL → LL → Bool
  | .fin _, .ninf => true
  | .fin a, .fin b => decide (a > b)
  | .ninf, _ => false

/-- Lines 127 and 130: the largest. -/
noncomputable def maxLl (lls : List LL) : LL := lls.foldl (fun m l => if l.gt m then l else m) .ninf

/-- `exp(lls[i] - max_ll)`, lines 132-133. -/
noncomputable def expShift (mx : ℝ) : LL → ℝ
  | .ninf => 0
  | .fin a => exp (a - mx)

/-- `getwt`, line 129. -/
def weightAt (ws : Option (List ℝ)) (i : Nat) : Res ℝ := match ws with | none => .ok 1 | some w => rd w i

/-- Line 133, from element `i` on. -/
noncomputable def scaled (ws : Option (List ℝ)) (mx : ℝ) : List LL → Nat → Res (List ℝ)
  | [], _ => .ok []
  | l :: ls, i => (weightAt ws i).bind fun w => (scaled ws mx ls (i + 1)).bind fun r => .ok (expShift mx l * w :: r)

/-- One data point, lines 113-135: `ll` before and after. -/
noncomputable def pointStep (ws : Option (List ℝ)) (ll : LL) (lls : List LL) : Res LL :=
  match maxLl lls with
  | .ninf => .ok .ninf
  | .fin mx => (scaled ws mx lls 0).bind fun r => .ok (ll.add ((LL.fin mx).add (elog r.sum)))

/-- The points given to one thread, in order. -/
noncomputable def pointLoop (ws : Option (List ℝ)) : LL → List (List LL) → Res LL
  | ll, [] => .ok ll
  | ll, p :: ps => (pointStep ws ll p).bind fun l => pointLoop ws l ps

/-- `OMP_for_reduce(+:ll, …)`, line 112: each thread starts from zero with its chunk of the points; the results are added to `ll`. -/
noncomputable def reduce (ws : Option (List ℝ)) : LL → List (List (List LL)) → Res LL
  | ll, [] => .ok ll
  | ll, c :: cs => (pointLoop ws (.fin 0) c).bind fun l => reduce ws (ll.add l) cs

/-- The total weight, lines 99 and 137; `n` is the number of base rows. -/
noncomputable def totalWeight (ws : Option (List ℝ)) (n : Nat) : ℝ := match ws with | none => n | some w => w.sum

/-- `kernel_ll`, lines 104-139, with the points split among threads in `chunks`; each point is given by the log likelihoods of the kernels around the `n` base rows. -/
noncomputable def kernelLl (ws : Option (List ℝ)) (n : Nat) (chunks : List (List (List LL))) : Res LL :=
  (reduce ws (.fin 0) chunks).bind fun ll => .ok (ll.add (.fin (-(chunks.flatten.length * log (totalWeight ws n)))))

/-! ### Specification -/

/-- The weights of the base rows: the PMF's, or one each. -/
def weightList (ws : Option (List ℝ)) (n : Nat) : List ℝ := ws.getD (List.replicate n 1)

/-- The kernel density estimate at a point where the kernels around the base rows have densities `ps`: their weighted mean. -/
noncomputable def kde (ws : List ℝ) (ps : List ℝ) : ℝ := (List.zipWith (· * ·) ws ps).sum / ws.sum

/-! ### Lemmas -/

theorem add_ninf (a : LL) : a.add .ninf = .ninf := by cases a <;> rfl

theorem ninf_add (a : LL) : LL.ninf.add a = .ninf := by cases a <;> rfl

theorem elog_mul (p q : ℝ) : elog (p * q) = (elog p).add (elog q) := by
  unfold elog
  by_cases hp : p = 0 <;> by_cases hq : q = 0 <;> simp [hp, hq, LL.add]
  exact log_mul hp hq

theorem elog_one : elog 1 = .fin 0 := by simp [elog]

theorem elog_exp (a : ℝ) : elog (exp a) = .fin a := by simp [elog]

theorem foldl_max_ninf (lls : List LL) : ∀ m, (lls.foldl (fun m l => if l.gt m then l else m) m = .ninf) ↔ m = .ninf ∧ ∀ l ∈ lls, l = .ninf := by
  induction lls with
  | nil => intro m; simp
  | cons l ls ih =>
    intro m
    rw [List.foldl_cons, ih]
    cases l <;> cases m <;> simp [LL.gt]
    split <;> simp

theorem expShift_elog (mx p : ℝ) (hp : 0 ≤ p) : expShift mx (elog p) = exp (-mx) * p := by
  unfold elog
  split
  · next h => simp [expShift, h]
  · next h =>
    have : 0 < p := lt_of_le_of_ne hp (Ne.symm h)
    simp only [expShift, exp_sub, exp_log this, exp_neg]
    field_simp

theorem scaled_eq (ws : Option (List ℝ)) (mx : ℝ) : ∀ (ps : List ℝ) (i : Nat), (∀ p ∈ ps, 0 ≤ p) → (∀ w, ws = some w → i + ps.length ≤ w.length) →
    ∃ r, scaled ws mx (ps.map elog) i = .ok r ∧ r.sum = exp (-mx) * (List.zipWith (· * ·) ((weightList ws (i + ps.length)).drop i) ps).sum := by
  intro ps
  induction ps with
  | nil => intro i _ _; exact ⟨[], rfl, by simp⟩
  | cons p ps ih =>
    intro i hp hw
    obtain ⟨r, e, hr⟩ := ih (i + 1) (fun q hq => hp q (List.mem_cons_of_mem _ hq)) (fun w h => by have := hw w h; simp at this; omega)
    have hlen : i + (p :: ps).length = i + 1 + ps.length := by simp; omega
    have hwt : ∃ w, weightAt ws i = .ok w ∧ (weightList ws (i + (p :: ps).length)).drop i = w :: (weightList ws (i + 1 + ps.length)).drop (i + 1) := by
      cases ws with
      | none =>
        refine ⟨1, rfl, ?_⟩
        simp only [weightList, Option.getD_none, List.drop_replicate]
        rw [hlen, show i + 1 + ps.length - i = (i + 1 + ps.length - (i + 1)) + 1 by omega, List.replicate_succ]
      | some w =>
        have hi : i < w.length := by have := hw w rfl; simp at this; omega
        refine ⟨w[i], by simp [weightAt, rd, hi], ?_⟩
        simp only [weightList, Option.getD_some]
        exact List.drop_eq_getElem_cons hi
    obtain ⟨w, hw1, hw2⟩ := hwt
    refine ⟨expShift mx (elog p) * w :: r, ?_, ?_⟩
    · rw [List.map_cons, scaled, hw1, e]; rfl
    · rw [List.sum_cons, hr, hw2, List.zipWith_cons_cons, List.sum_cons, expShift_elog mx p (hp p (by simp))]; ring

/-- The weights fit the base rows, none is negative and not all are zero. -/
structure WtOk (ws : Option (List ℝ)) (n : Nat) : Prop where
  len : ∀ w, ws = some w → w.length = n
  nonneg : ∀ w ∈ weightList ws n, 0 ≤ w
  pos : 0 < (weightList ws n).sum

theorem totalWeight_eq (ws : Option (List ℝ)) (n : Nat) : totalWeight ws n = (weightList ws n).sum := by cases ws <;> simp [totalWeight, weightList]

theorem pointStep_eq {ws : Option (List ℝ)} {n : Nat} (h : WtOk ws n) (ll : LL) (ps : List ℝ) (hl : ps.length = n) (hp : ∀ p ∈ ps, 0 ≤ p) :
    pointStep ws ll (ps.map elog) = .ok (ll.add (elog (List.zipWith (· * ·) (weightList ws n) ps).sum)) := by
  unfold pointStep
  cases hm : maxLl (ps.map elog) with
  | ninf =>
    have hall := ((foldl_max_ninf _ _).mp hm).2
    have hz : ∀ p ∈ ps, p = 0 := by
      intro p hp'
      have := hall (elog p) (List.mem_map.mpr ⟨p, hp', rfl⟩)
      unfold elog at this
      split at this
      · assumption
      · cases this
    have hs : (List.zipWith (· * ·) (weightList ws n) ps).sum = 0 := by
      apply List.sum_eq_zero
      intro x hx
      rw [← List.map_uncurry_zip_eq_zipWith, List.mem_map] at hx
      obtain ⟨⟨a, b⟩, hab, rfl⟩ := hx
      simp [hz b (List.of_mem_zip hab).2]
    rw [hs]
    simp [elog, add_ninf]
  | fin mx =>
    obtain ⟨r, e, hr⟩ := scaled_eq ws mx ps 0 hp (fun w hw => by rw [h.len w hw]; omega)
    simp only [e, Res.bind]
    rw [hr]
    simp only [Nat.zero_add, List.drop_zero, hl]
    congr 2
    rw [elog_mul, elog_exp]
    cases elog (List.zipWith (· * ·) (weightList ws n) ps).sum <;> simp [LL.add]

theorem pointLoop_eq {ws : Option (List ℝ)} {n : Nat} (h : WtOk ws n) : ∀ (pts : List (List ℝ)) (ll : LL), (∀ ps ∈ pts, ps.length = n ∧ ∀ p ∈ ps, 0 ≤ p) →
    pointLoop ws ll (pts.map (List.map elog)) = .ok (ll.add (elog (pts.map fun ps => (List.zipWith (· * ·) (weightList ws n) ps).sum).prod)) := by
  intro pts
  induction pts with
  | nil => intro ll _; cases ll <;> simp [pointLoop, elog, LL.add]
  | cons ps pts ih =>
    intro ll hp
    rw [List.map_cons, pointLoop, pointStep_eq h ll ps (hp ps (by simp)).1 (hp ps (by simp)).2]
    simp only [Res.bind]
    rw [ih _ (fun q hq => hp q (List.mem_cons_of_mem _ hq)), List.map_cons, List.prod_cons, elog_mul]
    congr 1
    generalize elog (List.zipWith (· * ·) (weightList ws n) ps).sum = a
    generalize elog (pts.map fun ps => (List.zipWith (· * ·) (weightList ws n) ps).sum).prod = b
    cases ll <;> cases a <;> cases b <;> simp [LL.add, add_assoc]

theorem reduce_eq {ws : Option (List ℝ)} {n : Nat} (h : WtOk ws n) : ∀ (chunks : List (List (List ℝ))) (ll : LL), (∀ c ∈ chunks, ∀ ps ∈ c, ps.length = n ∧ ∀ p ∈ ps, 0 ≤ p) →
    reduce ws ll (chunks.map (List.map (List.map elog))) = .ok (ll.add (elog (chunks.flatten.map fun ps => (List.zipWith (· * ·) (weightList ws n) ps).sum).prod)) := by
  intro chunks
  induction chunks with
  | nil => intro ll _; cases ll <;> simp [reduce, elog, LL.add]
  | cons c cs ih =>
    intro ll hp
    rw [List.map_cons, reduce, pointLoop_eq h c (.fin 0) (hp c (by simp))]
    simp only [Res.bind]
    rw [ih _ (fun q hq => hp q (List.mem_cons_of_mem _ hq)), List.flatten_cons, List.map_append, List.prod_append, elog_mul]
    congr 1
    generalize elog (c.map fun ps => (List.zipWith (· * ·) (weightList ws n) ps).sum).prod = a
    generalize elog (cs.flatten.map fun ps => (List.zipWith (· * ·) (weightList ws n) ps).sum).prod = b
    cases ll <;> cases a <;> cases b <;> simp [LL.add, add_assoc]

/-! ### C137 -/

/-- C137: however the points are split among threads, the log likelihood of a data set is the log of the product over its points of the kernel density estimate there:
the weighted mean of the kernels' densities (minus infinity if that is zero). -/
theorem C137_ll (ws : Option (List ℝ)) (n : Nat) (h : WtOk ws n) (chunks : List (List (List ℝ))) (hp : ∀ ps ∈ chunks.flatten, ps.length = n ∧ ∀ p ∈ ps, 0 ≤ p) :
    kernelLl ws n (chunks.map (List.map (List.map elog))) = .ok (elog ((chunks.flatten.map (kde (weightList ws n))).prod)) := by
  unfold kernelLl
  rw [reduce_eq h chunks (.fin 0) (fun c hc ps hps => hp ps (List.mem_flatten.mpr ⟨c, hc, hps⟩))]
  simp only [Res.bind]
  congr 1
  rw [totalWeight_eq]
  have hlen : (chunks.map (List.map (List.map elog))).flatten.length = chunks.flatten.length := by rw [← List.map_flatten, List.length_map]
  rw [hlen]
  generalize chunks.flatten = pts
  have hW := h.pos
  have key : (pts.map (kde (weightList ws n))).prod = (pts.map fun ps => (List.zipWith (· * ·) (weightList ws n) ps).sum).prod * exp (-(pts.length * log (weightList ws n).sum)) := by
    induction pts with
    | nil => simp
    | cons p pts ih =>
      rw [List.map_cons, List.prod_cons, ih, List.map_cons, List.prod_cons, List.length_cons, kde]
      have : exp (-(((pts.length + 1 : ℕ) : ℝ) * log (weightList ws n).sum)) = exp (-(pts.length * log (weightList ws n).sum)) / (weightList ws n).sum := by
        rw [show -(((pts.length + 1 : ℕ) : ℝ) * log (weightList ws n).sum) = -(pts.length * log (weightList ws n).sum) - log (weightList ws n).sum by push_cast; ring, exp_sub, exp_log hW]
      rw [this]; ring
  rw [key, elog_mul, elog_exp]
  cases elog (pts.map fun ps => (List.zipWith (· * ·) (weightList ws n) ps).sum).prod <;> simp [LL.add]

open MeasureTheory in
/-- C137: if each kernel is a probability density then so is the estimate: it integrates to one. -/
theorem C137_integrates {α : Type} [MeasurableSpace α] (μ : Measure α) (ws : List ℝ) (hW : ws.sum ≠ 0) (f : List (α → ℝ)) (hlen : f.length = ws.length)
    (hf : ∀ g ∈ f, Integrable g μ ∧ ∫ x, g x ∂μ = 1) : ∫ x, kde ws (f.map fun g => g x) ∂μ = 1 := by
  have key : ∀ (ws : List ℝ) (f : List (α → ℝ)), f.length = ws.length → (∀ g ∈ f, Integrable g μ ∧ ∫ x, g x ∂μ = 1) →
      Integrable (fun x => (List.zipWith (· * ·) ws (f.map fun g => g x)).sum) μ ∧ ∫ x, (List.zipWith (· * ·) ws (f.map fun g => g x)).sum ∂μ = ws.sum := by
    intro ws
    induction ws with
    | nil => intro f _ _; simp
    | cons w ws ih =>
      intro f hl hf
      match f, hl with
      | g :: f, hl =>
        obtain ⟨i1, i2⟩ := ih f (by simpa using hl) (fun q hq => hf q (List.mem_cons_of_mem _ hq))
        obtain ⟨g1, g2⟩ := hf g (by simp)
        simp only [List.map_cons, List.zipWith_cons_cons, List.sum_cons]
        refine ⟨(g1.const_mul w).add i1, ?_⟩
        rw [integral_add (g1.const_mul w) i1, i2, integral_const_mul, g2, mul_one]
  obtain ⟨-, h2⟩ := key ws f hlen hf
  unfold kde
  rw [integral_div, h2, div_self hW]

/-- Two points, three base rows of weights 1, 2, 1, in two threads; the second point is out of reach of all the kernels but the last. -/
example : kernelLl (some [1, 2, 1]) 3 [[[elog (1 / 2), elog 1, elog 0]], [[elog 0, elog 0, elog 2]]] = .ok (elog (5 / 16)) := by
  have h : WtOk (some [1, 2, 1]) 3 := ⟨by intro w hw; cases hw; rfl, by simp [weightList], by simp [weightList]; norm_num⟩
  have := C137_ll (some [1, 2, 1]) 3 h [[[1 / 2, 1, 0]], [[0, 0, 2]]] (by simp)
  simp only [List.map_cons, List.map_nil] at this
  rw [this]
  congr 2
  simp [kde, weightList]; norm_num

/-! ### C138: the CDF -/

/-- The loop of `kernel_cdf`, lines 90-98, given the kernels' CDFs at the point. -/
noncomputable def cdfLoop (ws : Option (List ℝ)) : List ℝ → Nat → ℝ → Res ℝ
  | [], _, total => .ok total
  | c :: cs, k, total => (weightAt ws k).bind fun w => cdfLoop ws cs (k + 1) (total + c * w)

/-- `kernel_cdf`, lines 84-102. -/
noncomputable def kernelCdf (ws : Option (List ℝ)) (cs : List ℝ) : Res ℝ := (cdfLoop ws cs 0 0).bind fun t => .ok (t / totalWeight ws cs.length)

theorem cdfLoop_eq (ws : Option (List ℝ)) : ∀ (cs : List ℝ) (i : Nat) (t : ℝ), (∀ w, ws = some w → i + cs.length ≤ w.length) →
    cdfLoop ws cs i t = .ok (t + (List.zipWith (· * ·) ((weightList ws (i + cs.length)).drop i) cs).sum) := by
  intro cs
  induction cs with
  | nil => intro i t _; simp [cdfLoop]
  | cons p ps ih =>
    intro i t hw
    have hlen : i + (p :: ps).length = i + 1 + ps.length := by simp; omega
    have hwt : ∃ w, weightAt ws i = .ok w ∧ (weightList ws (i + (p :: ps).length)).drop i = w :: (weightList ws (i + 1 + ps.length)).drop (i + 1) := by
      cases ws with
      | none =>
        refine ⟨1, rfl, ?_⟩
        simp only [weightList, Option.getD_none, List.drop_replicate]
        rw [hlen, show i + 1 + ps.length - i = (i + 1 + ps.length - (i + 1)) + 1 by omega, List.replicate_succ]
      | some w =>
        have hi : i < w.length := by have := hw w rfl; simp at this; omega
        refine ⟨w[i], by simp [weightAt, rd, hi], ?_⟩
        simp only [weightList, Option.getD_some]
        exact List.drop_eq_getElem_cons hi
    obtain ⟨w, hw1, hw2⟩ := hwt
    rw [cdfLoop, hw1]
    simp only [Res.bind]
    rw [ih (i + 1) _ (fun w h => by have := hw w h; simp at this; omega), hw2, List.zipWith_cons_cons, List.sum_cons]
    congr 1; ring

/-- C138: the CDF of a kernel density is the weighted mean of the kernels' CDFs. -/
theorem C138_cdf (ws : Option (List ℝ)) (cs : List ℝ) (h : ∀ w, ws = some w → w.length = cs.length) : kernelCdf ws cs = .ok (kde (weightList ws cs.length) cs) := by
  unfold kernelCdf
  rw [cdfLoop_eq ws cs 0 0 (fun w hw => by rw [h w hw]; omega)]
  simp [Res.bind, totalWeight_eq, kde]

theorem zip_mono (ws : List ℝ) (hw : ∀ w ∈ ws, 0 ≤ w) : ∀ cs ds : List ℝ, List.Forall₂ (· ≤ ·) cs ds → (List.zipWith (· * ·) ws cs).sum ≤ (List.zipWith (· * ·) ws ds).sum := by
  induction ws with
  | nil => intro cs ds _; simp
  | cons w ws ih =>
    intro cs ds h
    cases h with
    | nil => simp
    | cons h1 h2 =>
      simp only [List.zipWith_cons_cons, List.sum_cons]
      have := ih (fun v hv => hw v (List.mem_cons_of_mem _ hv)) _ _ h2
      have := mul_le_mul_of_nonneg_left h1 (hw w (by simp))
      linarith

/-- C138: it never falls where the kernels' CDFs rise. -/
theorem C138_monotone (ws : Option (List ℝ)) (cs ds : List ℝ) (h : WtOk ws cs.length) (hcd : List.Forall₂ (· ≤ ·) cs ds) :
    ∃ a b, kernelCdf ws cs = .ok a ∧ kernelCdf ws ds = .ok b ∧ a ≤ b := by
  have hl : cs.length = ds.length := hcd.length_eq
  refine ⟨_, _, C138_cdf ws cs h.len, C138_cdf ws ds (fun w hw => by rw [← hl]; exact h.len w hw), ?_⟩
  rw [← hl]
  exact div_le_div_of_nonneg_right (zip_mono _ h.nonneg cs ds hcd) h.pos.le

theorem zip_const (ws : List ℝ) (c : ℝ) : (List.zipWith (· * ·) ws (List.replicate ws.length c)).sum = c * ws.sum := by
  induction ws with
  | nil => simp
  | cons w ws ih => simp only [List.length_cons, List.replicate_succ, List.zipWith_cons_cons, List.sum_cons, ih]; ring

/-- C138: it lies between zero and one, and is zero (one) where all the kernels' are. -/
theorem C138_range (ws : Option (List ℝ)) (cs : List ℝ) (h : WtOk ws cs.length) (lo hi : ℝ) (hc : ∀ c ∈ cs, lo ≤ c ∧ c ≤ hi) : ∃ v, kernelCdf ws cs = .ok v ∧ lo ≤ v ∧ v ≤ hi := by
  refine ⟨_, C138_cdf ws cs h.len, ?_, ?_⟩
  · have hlen : (weightList ws cs.length).length = cs.length := by
      cases ws with
      | none => simp [weightList]
      | some w => exact h.len w rfl
    rw [kde, le_div_iff₀ h.pos]
    have := zip_mono _ h.nonneg (List.replicate cs.length lo) cs (by
      rw [List.forall₂_iff_get]; refine ⟨by simp, ?_⟩; intro i h1 h2; simp; exact (hc _ (List.getElem_mem h2)).1)
    have e := zip_const (weightList ws cs.length) lo
    rw [hlen] at e
    rwa [e] at this
  · have hlen : (weightList ws cs.length).length = cs.length := by
      cases ws with
      | none => simp [weightList]
      | some w => exact h.len w rfl
    rw [kde, div_le_iff₀ h.pos]
    have := zip_mono _ h.nonneg cs (List.replicate cs.length hi) (by
      rw [List.forall₂_iff_get]; refine ⟨by simp, ?_⟩; intro i h1 h2; simp; exact (hc _ (List.getElem_mem h1)).2)
    have e := zip_const (weightList ws cs.length) hi
    rw [hlen] at e
    rwa [e] at this

/-- Without weights, two kernels at 1/2 and 1. -/
example : kernelCdf none [1 / 2, 1] = .ok (3 / 4) := by
  rw [C138_cdf none _ (by simp)]; simp [kde, weightList]; norm_num

/-! ### C139: draws -/

/-- `apop_data_get(in)` as `apop_set_first_param` (lines 52-54) calls it, for a one-row data set: matrix element (0,0), or the vector's if there's no matrix (C11). -/
def firstNumber {α : Type} (vec : Option α) (mat : Option (List α)) : Option α := match mat with | some m => m.head? | none => vec

/-- What `point` (lines 148-149) gives the same function: the row as written by the PMF's draw, in a one-row matrix. -/
def drawnCenter (r : Pmf.Row) : Option Pmf.Dbl := firstNumber none (some (Pmf.writeRow r))

/-- The centre of the kernel for that base row in the likelihood and CDF (lines 95, 119). -/
def center (r : Pmf.Row) : Option Pmf.Dbl := firstNumber r.vec r.mat

/-- The base row drawn for the uniform number `u` (C63, C64); none when the PMF can't be used. -/
noncomputable def baseRow (ws : Option (List ℝ)) (n : Nat) (u : ℝ) : Option Nat :=
  match ws with
  | none => some (Pmf.drawUnweighted n u)
  | some w =>
    match Pmf.setupCmf w with
    | .ok (some c) => (match Pmf.drawRow c u (w.length + 1) with | .row i => some i | _ => none)
    | _ => none

/-- `kernel_draw`, lines 144-155, with the default way to set the kernel's parameter: return value and number drawn. `sampler` draws from the kernel around a number, and may fail. -/
noncomputable def kernelDraw (rows : List Pmf.Row) (ws : Option (List ℝ)) (u : ℝ) (sampler : Pmf.Dbl → Option Pmf.Dbl) : Nat × Option Pmf.Dbl :=
  match (baseRow ws rows.length u).bind fun i => (rows[i]?).bind drawnCenter with
  | none => (1, none)
  | some c => (match sampler c with | none => (2, none) | some v => (0, some v))

theorem center_eq (r : Pmf.Row) (h : (r.vec = none ∧ r.mat ≠ none) ∨ (r.vec ≠ none ∧ r.mat = none)) : drawnCenter r = center r := by
  obtain ⟨v, m⟩ := r
  rcases h with ⟨h1, h2⟩ | ⟨h1, h2⟩
  · simp only at h1 h2
    subst h1
    obtain ⟨m, rfl⟩ := Option.ne_none_iff_exists'.mp h2
    simp [drawnCenter, center, firstNumber, Pmf.writeRow]
  · simp only at h1 h2
    subst h2
    obtain ⟨v, rfl⟩ := Option.ne_none_iff_exists'.mp h1
    simp [drawnCenter, center, firstNumber, Pmf.writeRow]

/-- C139: for weighted base data that is only a vector or only a matrix, a draw is taken from the kernel that the likelihood puts around base row `i`, where `i` is the row whose
share of the cumulative weight the uniform number falls into; the return value is 0, or 2 if the kernel can't be drawn from. -/
theorem C139_draw (rows : List Pmf.Row) (ws : List ℝ) (hl : ws.length = rows.length) (hw : ∀ w ∈ ws, 0 ≤ w) (hs : 0 < ws.sum) (u : ℝ) (hu0 : 0 < u) (hu1 : u < 1)
    (hr : ∀ r ∈ rows, (r.vec = none ∧ ∃ x m, r.mat = some (x :: m)) ∨ (r.vec ≠ none ∧ r.mat = none)) (sampler : Pmf.Dbl → Option Pmf.Dbl) :
    ∃ (i : Nat) (r : Pmf.Row) (c : Pmf.Dbl), rows[i]? = some r ∧ center r = some c ∧ Pmf.cumShare ws i < u ∧ u ≤ Pmf.cumShare ws (i + 1) ∧
      kernelDraw rows (some ws) u sampler = (if (sampler c).isSome then 0 else 2, sampler c) := by
  obtain ⟨c, i, h1, h2, h3, h4, -, h6⟩ := Pmf.C63_row ws hw hs u hu0.le hu1
  obtain ⟨h7, -⟩ := h6 hu0
  have hi : i < rows.length := by omega
  have hmem := hr rows[i] (List.getElem_mem hi)
  have hcen : drawnCenter rows[i] = center rows[i] := by
    apply center_eq
    rcases hmem with ⟨a, x, m, b⟩ | h
    · exact Or.inl ⟨a, by simp [b]⟩
    · exact Or.inr h
  have hsome : ∃ x, center rows[i] = some x := by
    rcases hmem with ⟨a, x, m, b⟩ | ⟨a, b⟩
    · exact ⟨x, by simp [center, firstNumber, b]⟩
    · obtain ⟨v, hv⟩ := Option.ne_none_iff_exists'.mp a
      exact ⟨v, by simp [center, firstNumber, b, hv]⟩
  obtain ⟨x, hx⟩ := hsome
  refine ⟨i, rows[i], x, List.getElem?_eq_getElem hi, hx, h7, h4, ?_⟩
  unfold kernelDraw baseRow
  simp only [h1, h2, Option.bind, List.getElem?_eq_getElem hi, hcen, hx]
  cases sampler x <;> rfl

/-- C139: the uniform numbers that lead to base row `i` form an interval of length its share of the weight. -/
theorem C139_share (ws : List ℝ) (hw : ∀ w ∈ ws, 0 ≤ w) (hs : 0 < ws.sum) (i : ℕ) (hi : i < ws.length) :
    (∀ u, 0 < u → u < 1 → (baseRow (some ws) ws.length u = some i ↔ Pmf.cumShare ws i < u ∧ u ≤ Pmf.cumShare ws (i + 1))) ∧
      Pmf.cumShare ws (i + 1) - Pmf.cumShare ws i = ws.getD i 0 / ws.sum ∧ 0 ≤ Pmf.cumShare ws i ∧ Pmf.cumShare ws (i + 1) ≤ 1 := by
  obtain ⟨c, h1, h2, h3⟩ := Pmf.C63_interval ws hw hs i hi
  refine ⟨?_, h3⟩
  intro u hu0 hu1
  rw [← h2 u hu0 hu1]
  unfold baseRow
  simp only [h1]
  cases Pmf.drawRow c u (ws.length + 1) <;> simp

/-- C139 (refuted): that draws agree with the likelihood for base data with both parts: the likelihood centres the kernel on the matrix element, draws on the vector's. -/
theorem C139_both_parts_refuted (v x : Pmf.Dbl) (m : List Pmf.Dbl) : center ⟨some v, some (x :: m), []⟩ = some x ∧ drawnCenter ⟨some v, some (x :: m), []⟩ = some v := by
  simp [center, drawnCenter, firstNumber, Pmf.writeRow]

/-- C139 (refuted): that without weights each base row has its share: the last is never used. -/
theorem C139_unweighted_refuted (n : Nat) (hn : 2 ≤ n) (u : ℝ) (h0 : 0 ≤ u) (h1 : u < 1) : baseRow none n u ≠ some (n - 1) := by
  unfold baseRow
  intro h
  injection h with h
  exact Pmf.C64_last_never n hn u h0 h1 h

/-- A draw from two base rows of weights 1 and 3, the kernel a point mass: three quarters of the uniform numbers give the second row. -/
example : ∃ i : Nat, ∃ r c, [(⟨some (.fin 5), none, []⟩ : Pmf.Row), ⟨some (.fin 7), none, []⟩][i]? = some r ∧ center r = some c ∧
    kernelDraw [⟨some (.fin 5), none, []⟩, ⟨some (.fin 7), none, []⟩] (some [1, 3]) (1 / 2) some = (0, some c) := by
  obtain ⟨i, r, c, h1, h2, -, -, h5⟩ := C139_draw [⟨some (.fin 5), none, []⟩, ⟨some (.fin 7), none, []⟩] [1, 3] rfl (by simp) (by norm_num) (1 / 2) (by norm_num) (by norm_num)
    (by intro r hr; simp at hr; rcases hr with rfl | rfl <;> simp) some
  exact ⟨i, r, c, h1, h2, by simpa using h5⟩

end Apop.Density
