import Mathlib.Algebra.Order.Field.Basic
import Mathlib.Algebra.Order.BigOperators.Group.List
import Mathlib.Algebra.BigOperators.Ring.List
import Mathlib.Tactic.Ring
import Mathlib.Tactic.FieldSimp
import Mathlib.Tactic.Linarith
import Mathlib.Tactic.NormNum

/-! # Moments (apop_stats.m4.c): C51-C54

Numbers are the elements of a field (ordered where the code compares): the arithmetic of the model is exact, rounding is not modelled. A result that is not a
finite number (NaN, or a division by zero) is `none`. -/

namespace Apop.Stats
variable {K : Type} [Field K]

/-- Division of doubles: no number if the divisor is zero. -/
def cdiv [DecidableEq K] (a b : K) : Option K := if b = 0 then none else some (a / b)

/-- `apop_vector_sum`, apop_stats.m4.c:15-21. -/
def vectorSum (l : List K) : K := l.foldl (· + ·) 0

/-- `gsl_stats_mean` (GSL; its documentation: the arithmetic mean). -/
def gslMean (l : List K) : K := l.sum / l.length

/-- `gsl_stats_variance_m` (GSL: `1/(n-1) Σ (x - mean)²`). -/
def gslVarM [DecidableEq K] (l : List K) (mean : K) : Option K := cdiv (l.map (fun x => (x - mean) ^ 2)).sum (l.length - 1)

/-- `gsl_stats_covariance` (GSL: `1/(n-1) Σ (x - mean x)(y - mean y)`). -/
def gslCov [DecidableEq K] (a b : List K) : Option K := cdiv ((List.zipWith (fun x y => (x - gslMean a) * (y - gslMean b)) a b).sum) (a.length - 1)

/-- The checks of the macro `Check_vw`, apop_stats.m4.c:8-11; NULL is `none`. -/
def checkVW (v w : Option (List K)) : Option (List K × Option (List K)) :=
  match v with
  | none => none
  | some v =>
    if v = [] then none
    else match w with
      | none => some (v, none)
      | some w => if w.length ≠ v.length then none else some (v, some w)

/-- The loop of the weighted mean, apop_stats.m4.c:479-483: the sum of the products and the sum of the weights. -/
def meanLoop : List K → List K → K × K → K × K
  | x :: v, a :: w, (sum, wsum) => meanLoop v w (sum + a * x, wsum + a)
  | _, _, s => s

/-- `apop_vector_mean`, apop_stats.m4.c:473-485. -/
def vectorMean [DecidableEq K] (v w : Option (List K)) : Option K := do
  let (v, w) ← checkVW v w
  match w with
  | none => some (gslMean v)
  | some w => let (sum, wsum) := meanLoop v w (0, 0); cdiv sum wsum

/-- The loop of the weighted variance, apop_stats.m4.c:514-520: Σwx, Σwx², Σw. -/
def varLoop : List K → List K → K × K × K → K × K × K
  | x :: v, a :: w, (sum, sumsq, wsum) => varLoop v w (sum + a * x, sumsq + a * x ^ 2, wsum + a)
  | _, _, s => s

/-- `len`, the number of elements the weights stand for: apop_stats.m4.c:66, :521, :563. -/
def weightLen [LT K] [DecidableLT K] (wsum : K) (n : Nat) : K := if wsum < 11 / 10 then n else wsum

/-- Line 522. -/
def varFrom [DecidableEq K] (sum sumsq len : K) : Option K := do
  let a ← cdiv sumsq len
  let b ← cdiv sum len
  let c ← cdiv len (len - 1)
  some ((a - b ^ 2) * c)

/-- `apop_vector_var`, apop_stats.m4.c:505-523. -/
def vectorVar [DecidableEq K] [LT K] [DecidableLT K] (v w : Option (List K)) : Option K := do
  let (v, w) ← checkVW v w
  match w with
  | none => gslVarM v (gslMean v)
  | some w => let (sum, sumsq, wsum) := varLoop v w (0, 0, 0); varFrom sum sumsq (weightLen wsum w.length)

/-- The loop of the weighted covariance, apop_stats.m4.c:554-562: Σwx, Σwy, Σwxy, Σw. -/
def covLoop : List K → List K → List K → K × K × K × K → K × K × K × K
  | x :: a, y :: b, c :: w, (s1, s2, sq, ws) => covLoop a b w (s1 + c * x, s2 + c * y, sq + c * x * y, ws + c)
  | _, _, _, s => s

/-- Line 564. -/
def covFrom [DecidableEq K] (s1 s2 sq len : K) : Option K := do
  let a ← cdiv sq len
  let b ← cdiv (s1 * s2) (len ^ 2)
  let c ← cdiv len (len - 1)
  some ((a - b) * c)

/-- `apop_vector_cov`, apop_stats.m4.c:535-565. -/
def vectorCov [DecidableEq K] [LT K] [DecidableLT K] (a b w : Option (List K)) : Option K :=
  match a, b with
  | some a, some b =>
    if a = [] ∨ b = [] ∨ a.length ≠ b.length then none
    else match w with
      | none => gslCov a b
      | some w =>
        if w.length ≠ a.length then none
        else let (s1, s2, sq, ws) := covLoop a b w (0, 0, 0, 0); covFrom s1 s2 sq (weightLen ws w.length)
  | _, _ => none

/-- The running average of lines 102-105 and 140-143: `avg += (x - avg)/(i + 1)`. -/
def runAvg : Nat → K → List K → K
  | _, avg, [] => avg
  | i, avg, x :: l => runAvg (i + 1) (avg + (x - avg) / (i + 1)) l

/-- The loop of `wskewkurt`, apop_stats.m4.c:60-65. -/
def powLoop (mu : K) (k : Nat) : List K → List K → K × K → K × K
  | x :: v, a :: w, (s, ws) => powLoop mu k v w (s + a * (x - mu) ^ k, ws + a)
  | _, _, s => s

/-- `apop_vector_skew_pop` (`k = 3`) and `apop_vector_kurtosis_pop` (`k = 4`), apop_stats.m4.c:55-68, 87-107, 125-145. -/
def momentPop [DecidableEq K] [LT K] [DecidableLT K] (k : Nat) (v w : Option (List K)) : Option K := do
  let (v, w) ← checkVW v w
  match w with
  | none => let mean ← vectorMean (some v) none; some (runAvg 0 0 (v.map (fun x => (x - mean) ^ k)))
  | some w => do
    let mu ← vectorMean (some v) (some w)
    let (s, ws) := powLoop mu k v w (0, 0)
    cdiv s (weightLen ws w.length)

/-- `apop_vector_skew`, apop_stats.m4.c:38-39. -/
def vectorSkew [DecidableEq K] [LT K] [DecidableLT K] (v : List K) : Option K := do
  let s ← momentPop 3 (some v) none
  cdiv (s * (v.length : K) ^ 2) (((v.length : K) - 1) * ((v.length : K) - 2))

/-- `apop_vector_kurtosis`, apop_stats.m4.c:50-56. -/
def vectorKurtosis [DecidableEq K] [LT K] [DecidableLT K] (v : List K) : Option K := do
  let n : K := v.length
  let c0 ← cdiv (n * n) ((n - 1) ^ 3 * (n ^ 2 - 3 * n + 3))
  let c1 := n * (n - 1) ^ 2 + (6 * n - 9)
  let c2 := n * (6 * n - 9)
  let k ← momentPop 4 (some v) none
  let var ← vectorVar (some v) none
  some (c0 * (c1 * k - c2 * (var * (n - 1) / n) ^ 2))

/-- `apop_matrix_sum`, apop_stats.m4.c:305-312. -/
def matrixSum (rows : List (List K)) : K := rows.foldl (fun s r => r.foldl (· + ·) s) 0

/-- The loop of `apop_matrix_mean`, apop_stats.m4.c:325-335: `avg = avg*cnt/(cnt+1) + x/(cnt+1)`. -/
def meanRun : Nat → K → List K → K
  | _, avg, [] => avg
  | n, avg, x :: l => meanRun (n + 1) (avg * (n / (n + 1)) + x / ((n + 1 : Nat) : K)) l

/-- `apop_matrix_mean`, apop_stats.m4.c:322-337, of the elements row by row (a NULL matrix has none). -/
def matrixMean (rows : List (List K)) : K := meanRun 0 0 rows.flatten

/-- `apop_matrix_mean_and_var`, apop_stats.m4.c:354-373: the mean, and the average square less the squared mean. -/
def matrixMeanVar (rows : List (List K)) : K × K :=
  let avg := meanRun 0 0 rows.flatten
  (avg, meanRun 0 0 (rows.flatten.map (· ^ 2)) - avg ^ 2)

/-! ## The loops are sums -/

theorem foldl_add (l : List K) : ∀ s : K, l.foldl (· + ·) s = s + l.sum := by
  induction l with
  | nil => intro s; simp
  | cons x l ih => intro s; rw [List.foldl_cons, ih, List.sum_cons]; ring

theorem vectorSum_eq (l : List K) : vectorSum l = l.sum := by rw [vectorSum, foldl_add]; ring

theorem matrixSum_eq (rows : List (List K)) : matrixSum rows = rows.flatten.sum := by
  have : ∀ (rows : List (List K)) (s : K), rows.foldl (fun s r => r.foldl (· + ·) s) s = s + rows.flatten.sum := by
    intro rows
    induction rows with
    | nil => intro s; simp
    | cons r rows ih => intro s; rw [List.foldl_cons, ih, foldl_add, List.flatten_cons, List.sum_append]; ring
  rw [matrixSum, this]; ring

theorem meanLoop_eq : ∀ (v w : List K), v.length = w.length → ∀ s : K × K,
    meanLoop v w s = (s.1 + (List.zipWith (fun a x => a * x) w v).sum, s.2 + w.sum)
  | [], [], _, s => by simp [meanLoop]
  | x :: v, a :: w, h, (s, t) => by
    rw [meanLoop, meanLoop_eq v w (by simpa using h)]
    simp only [List.zipWith_cons_cons, List.sum_cons, Prod.mk.injEq]
    constructor <;> ring
  | [], _ :: _, h, _ => by simp at h
  | _ :: _, [], h, _ => by simp at h

theorem varLoop_eq : ∀ (v w : List K), v.length = w.length → ∀ s : K × K × K,
    varLoop v w s = (s.1 + (List.zipWith (fun a x => a * x) w v).sum, s.2.1 + (List.zipWith (fun a x => a * x ^ 2) w v).sum, s.2.2 + w.sum)
  | [], [], _, s => by simp [varLoop]
  | x :: v, a :: w, h, (s, t, u) => by
    rw [varLoop, varLoop_eq v w (by simpa using h)]
    simp only [List.zipWith_cons_cons, List.sum_cons, Prod.mk.injEq]
    refine ⟨?_, ?_, ?_⟩ <;> ring
  | [], _ :: _, h, _ => by simp at h
  | _ :: _, [], h, _ => by simp at h

theorem powLoop_eq (mu : K) (k : Nat) : ∀ (v w : List K), v.length = w.length → ∀ s : K × K,
    powLoop mu k v w s = (s.1 + (List.zipWith (fun a x => a * (x - mu) ^ k) w v).sum, s.2 + w.sum)
  | [], [], _, s => by simp [powLoop]
  | x :: v, a :: w, h, (s, t) => by
    rw [powLoop, powLoop_eq mu k v w (by simpa using h)]
    simp only [List.zipWith_cons_cons, List.sum_cons, Prod.mk.injEq]
    constructor <;> ring
  | [], _ :: _, h, _ => by simp at h
  | _ :: _, [], h, _ => by simp at h

/-- Each element as often as its weight says. -/
def replicates : List ℕ → List K → List K
  | n :: w, x :: v => List.replicate n x ++ replicates w v
  | _, _ => []

/-- The weights as numbers. -/
def ofCounts (w : List ℕ) : List K := w.map (fun n : ℕ => (n : K))

theorem replicates_sum (g : K → K) : ∀ (w : List ℕ) (v : List K), v.length = w.length →
    ((replicates w v).map g).sum = (List.zipWith (fun a x => a * g x) (ofCounts w) v).sum
  | [], [], _ => by simp [replicates, ofCounts]
  | n :: w, x :: v, h => by
    have ih := replicates_sum g w v (by simpa using h)
    simp only [replicates, List.map_append, List.sum_append, ih, ofCounts, List.map_cons, List.zipWith_cons_cons, List.sum_cons,
      List.map_replicate, List.sum_replicate, nsmul_eq_mul]
  | [], _ :: _, h => by simp at h
  | _ :: _, [], h => by simp at h

theorem replicates_length : ∀ (w : List ℕ) (v : List K), v.length = w.length → ((replicates w v).length : K) = (ofCounts w : List K).sum
  | [], [], _ => by simp [replicates, ofCounts]
  | n :: w, x :: v, h => by
    have ih := replicates_length w v (by simpa using h)
    simp only [replicates, List.length_append, List.length_replicate, Nat.cast_add, ih, ofCounts, List.map_cons, List.sum_cons]
  | [], _ :: _, h => by simp at h
  | _ :: _, [], h => by simp at h

/-! ## C51: means -/

/-- **C51 (sums).** -/
theorem C51_sum (l : List K) : vectorSum l = l.sum := vectorSum_eq l
theorem C51_matrix_sum (rows : List (List K)) : matrixSum rows = rows.flatten.sum := matrixSum_eq rows

variable [DecidableEq K]

/-- **C51 (weighted mean).** Σwx/Σw; not a number if the weights sum to zero. -/
theorem C51_weighted (v w : List K) (hv : v ≠ []) (hw : v.length = w.length) :
    vectorMean (some v) (some w) = if w.sum = 0 then none else some ((List.zipWith (fun a x => a * x) w v).sum / w.sum) := by
  simp only [vectorMean, checkVW, hv, hw, if_false, ne_eq, not_true_eq_false, Option.bind_eq_bind, Option.bind_some, meanLoop_eq v w hw (0, 0), cdiv, zero_add]

theorem C51_mean (v : List K) (hv : v ≠ []) : vectorMean (some v) none = some (v.sum / v.length) := by
  simp [vectorMean, checkVW, hv, gslMean]

/-- **C51 (replicates).** With whole weights, not all zero, the mean is that of the data with each element repeated as often as its weight says. -/
theorem C51_replicates [CharZero K] (v : List K) (w : List ℕ) (hv : v ≠ []) (hw : v.length = w.length) (hp : replicates w v ≠ []) :
    vectorMean (some v) (some (ofCounts w)) = vectorMean (some (replicates w v)) none := by
  rw [C51_weighted v _ hv (by simp [ofCounts, hw]), C51_mean _ hp]
  have hl := replicates_length w v hw
  have hs := replicates_sum (fun x => x) w v hw
  simp only [List.map_id'] at hs
  rw [← hl, hs, if_neg]
  rw [Nat.cast_eq_zero, List.length_eq_zero_iff]
  exact hp

/-- **C51 (scale).** The weights matter up to a factor only. -/
theorem C51_scale (v w : List K) (c : K) (hc : c ≠ 0) (hv : v ≠ []) (hw : v.length = w.length) :
    vectorMean (some v) (some (w.map (c * ·))) = vectorMean (some v) (some w) := by
  rw [C51_weighted v _ hv (by simp [hw]), C51_weighted v w hv hw]
  have h1 : (w.map (c * ·)).sum = c * w.sum := List.sum_map_mul_left ..|>.trans (by simp)
  have h2 : (List.zipWith (fun a x => a * x) (w.map (c * ·)) v).sum = c * (List.zipWith (fun a x => a * x) w v).sum := by
    clear h1 hv
    induction w generalizing v with
    | nil => simp
    | cons a w ih =>
      cases v with
      | nil => simp
      | cons x v =>
        have := ih v (by simpa using hw)
        simp only [List.map_cons, List.zipWith_cons_cons, List.sum_cons, this]
        ring
  rw [h1, h2]
  by_cases h : w.sum = 0
  · simp [h]
  · rw [if_neg (mul_ne_zero hc h), if_neg h, mul_div_mul_left _ _ hc]

omit [DecidableEq K] in
theorem meanRun_eq [CharZero K] (l : List K) : ∀ (n : ℕ) (avg : K), meanRun n avg l * ((n + l.length : ℕ) : K) = avg * n + l.sum := by
  induction l with
  | nil => intro n avg; simp [meanRun]
  | cons x l ih =>
    intro n avg
    have h := ih (n + 1) (avg * (n / (n + 1)) + x / ((n + 1 : ℕ) : K))
    rw [meanRun, List.length_cons, show n + (l.length + 1) = n + 1 + l.length by ring, h, List.sum_cons]
    have : ((n : K) + 1) ≠ 0 := Nat.cast_add_one_ne_zero n
    push_cast
    field_simp
    ring

omit [DecidableEq K] in
/-- **C51 (matrices).** The running average is the average of all elements. -/
theorem C51_matrix_mean [CharZero K] (rows : List (List K)) (h : rows.flatten ≠ []) : matrixMean rows = rows.flatten.sum / rows.flatten.length := by
  have := meanRun_eq rows.flatten 0 (0 : K)
  have hn : ((rows.flatten.length : ℕ) : K) ≠ 0 := by rw [Nat.cast_ne_zero, ne_eq, List.length_eq_zero_iff]; exact h
  rw [matrixMean, eq_div_iff hn]
  simpa using this

/-- Not vacuous: three elements with weights 1, 2, 1. -/
example : vectorMean (some [1, 2, 6]) (some [1, 2, 1]) = some (11 / 4 : ℚ) := by
  rw [C51_weighted _ _ (by simp) (by simp)]
  norm_num

end Apop.Stats
