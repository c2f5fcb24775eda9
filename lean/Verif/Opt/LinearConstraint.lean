import Verif.Base.C
import Mathlib.Data.Matrix.Mul
import Mathlib.LinearAlgebra.Matrix.DotProduct
import Mathlib.Analysis.Real.Sqrt
import Mathlib.Analysis.SpecialFunctions.Trigonometric.Inverse
import Mathlib.Algebra.BigOperators.Fin
import Mathlib.Tactic.Linarith
import Mathlib.Tactic.FieldSimp
import Mathlib.Tactic.FinCases

/-! # C88: points moved to meet linear constraints -/

namespace Apop.LinCon
open Matrix
variable {n : ℕ}

/-- A point. -/
abbrev V (n : ℕ) := Fin n → ℝ

/-- One constraint, `k < b x` (or `≤`, without margin): a row of the `constraint` set. -/
structure Con (n : ℕ) where
  k : ℝ
  b : V n

/-! ## The models (exact arithmetic; `none` where a division by zero or an inverse cosine outside its range gives NaN or infinity, and so a failed assertion or no use) -/

/-- `apop_vector_distance`, apop_stats.m4.c, with its default metric. -/
noncomputable def dist (a b : V n) : ℝ := Real.sqrt (∑ i, (a i - b i) ^ 2)

/-- `magnitude`, apop_linear_constraint.m4.c:8-12: the *square* of the length. -/
def magnitude (v : V n) : ℝ := v ⬝ᵥ v

/-- `find_nearest_point`, apop_linear_constraint.m4.c:14-26. -/
noncomputable def nearest (v : V n) (c : Con n) : Option (V n) := by
  classical exact if magnitude c.b = 0 then none else some fun i => c.b i * (-((c.b ⬝ᵥ v - c.k) / magnitude c.b)) + v i

/-- `binds`, apop_linear_constraint.m4.c:28-32. -/
def binds (v : V n) (c : Con n) (margin : ℝ) : Prop := v ⬝ᵥ c.b < c.k + margin

noncomputable instance (v : V n) (c : Con n) (margin : ℝ) : Decidable (binds v c margin) := by unfold binds; infer_instance

/-- The cosine in `trig_bit`, line 37. -/
noncomputable def costheta (a b : V n) : ℝ := (a ⬝ᵥ b) / (magnitude a * magnitude b)

/-- `trig_bit`, apop_linear_constraint.m4.c:34-41. -/
noncomputable def trigBit (a b : V n) (off : ℝ) : Option ℝ := by
  classical exact if magnitude a * magnitude b = 0 ∨ 1 < |costheta a b| ∨ Real.sin (Real.arccos (costheta a b)) = 0 then none else some (off / Real.sin (Real.arccos (costheta a b)) ^ 2)

/-- The point `pseudobeta` with the fix added, lines 76-80. -/
noncomputable def addFix (p : V n) (cc : Con n) (s : ℝ) : V n := fun i => cc.b i * magnitude cc.b * s + p i

/-- What is done about another constraint that binds, apop_linear_constraint.m4.c:73-82: the next candidate (and next `pseudobeta`). -/
noncomputable def adapt (cc other : Con n) (p : V n) : Option (V n) :=
  (nearest p other).bind fun pc => (nearest pc cc).bind fun pc2 =>
    (trigBit cc.b other.b (dist pc pc2)).bind fun s => nearest (addFix p cc s) other

/-- The loop of `get_candiate`, apop_linear_constraint.m4.c:61-86, over the constraints other than the current one (`true`: the current one, passed over). The `pseudobeta` is not there until first needed. -/
noncomputable def candLoop (beta : V n) (cc : Con n) (margin : ℝ) : Option (V n) → V n → List (Bool × Con n) → Option (V n)
  | _, cand, [] => some cand
  | pb, cand, (skip, o) :: os =>
    if skip then candLoop beta cc margin pb cand os
    else if binds cand o margin then (adapt cc o (pb.getD beta)).bind fun c => candLoop beta cc margin (some c) c os
    else candLoop beta cc margin pb cand os

/-- The list of constraints with the one numbered `i` marked. -/
def mark (i : ℕ) (cs : List (Con n)) : List (Bool × Con n) := cs.mapIdx fun j c => (decide (j = i), c)

/-- `get_candiate`, apop_linear_constraint.m4.c:51-91. -/
noncomputable def candidate (beta : V n) (cs : List (Con n)) (i : ℕ) (cc : Con n) (margin : ℝ) : Option (V n) :=
  (nearest beta cc).bind fun c => candLoop beta cc margin none c (mark i cs)

/-- Is the candidate nearer than `closest_pt`? A fresh `closest_pt` has an infinite first element: everything is. -/
noncomputable def nearer (beta c : V n) (closest : Option (V n)) : Prop := ∀ p ∈ closest, dist beta c < dist beta p

noncomputable instance (beta c : V n) (closest : Option (V n)) : Decidable (nearer beta c closest) := by classical exact inferInstance

/-- The loop over the constraints that bind, apop_linear_constraint.m4.c:177-182. The number of the constraint is counted along. -/
noncomputable def search (beta : V n) (cs : List (Con n)) (margin : ℝ) : Option (V n) → ℕ → List (Con n) → Option (Option (V n))
  | closest, _, [] => some closest
  | closest, i, c :: rest =>
    if binds beta c margin then
      (candidate beta cs i c margin).bind fun p => search beta cs margin (if nearer beta p closest then some p else closest) (i + 1) rest
    else search beta cs margin closest (i + 1) rest

/-- `add_margin`, apop_linear_constraint.m4.c:185-192: `fix` is scaled by its own magnitude and by the margin. -/
noncomputable def addMargin (beta : V n) (margin : ℝ) : V n → List (Con n) → V n
  | x, [] => x
  | x, c :: cs => addMargin beta margin (if binds beta c margin then fun i => x i + c.b i * magnitude c.b * margin else x) cs

/-- The static scratch vector `closest_pt`: its size and contents (`none`: fresh, with the infinite element). -/
structure St where
  n : ℕ
  pt : Option (V n)

/-- The scratch vector found by a call with points of size `n`, lines 149-154: a vector of other size is replaced by a fresh one. -/
def St.fetch (s : St) (n : ℕ) : Option (V n) := if h : s.n = n then h ▸ s.pt else none

/-- What a call returns, leaves in `beta`, and leaves in the scratch vector. -/
structure Out (n : ℕ) where
  penalty : ℝ
  beta : V n
  st : St

/-- `apop_linear_constraint`, apop_linear_constraint.m4.c:145-197. A `closest_pt` still infinite can't be, as some constraint binds. -/
noncomputable def linearConstraint (s : St) (cs : List (Con n)) (margin : ℝ) (beta : V n) : Option (Out n) := by
  classical exact
  if ∀ c ∈ cs, ¬ binds beta c margin then some ⟨0, beta, ⟨n, s.fetch n⟩⟩
  else match cs with
    | [c] => (nearest beta c).map fun x => ⟨dist beta (addMargin beta margin x cs), addMargin beta margin x cs, ⟨n, s.fetch n⟩⟩
    | _ => (search beta cs margin (s.fetch n) 0 cs).bind fun closest => closest.map fun x =>
        ⟨dist beta (addMargin beta margin x cs), addMargin beta margin x cs, ⟨n, some x⟩⟩

/-- The default constraint, apop_linear_constraint.m4.c:131-142: every element greater than zero. -/
def positive (n : ℕ) : List (Con n) := List.ofFn fun i => ⟨0, Pi.single i 1⟩

/-! ## Specification -/

/-- The constraint is met, with the margin to spare. -/
def Meets (x : V n) (cs : List (Con n)) (margin : ℝ) : Prop := ∀ c ∈ cs, c.k + margin ≤ ∑ i, c.b i * x i

/-- `x` is the one point of the set nearest to `beta`. -/
def NearestIn (S : V n → Prop) (beta x : V n) : Prop := S x ∧ ∀ y, S y → dist beta x ≤ dist beta y ∧ (dist beta y = dist beta x → y = x)

/-! ## Proofs -/

theorem not_binds_iff (v : V n) (c : Con n) (m : ℝ) : ¬ binds v c m ↔ c.k + m ≤ ∑ i, c.b i * v i := by
  unfold binds
  rw [not_lt, dotProduct_comm]
  rfl

theorem meets_iff (v : V n) (cs : List (Con n)) (m : ℝ) : (∀ c ∈ cs, ¬ binds v c m) ↔ Meets v cs m := by
  unfold Meets
  exact forall₂_congr fun c _ => not_binds_iff v c m

/-- **C88 (met).** A point that meets the constraints, however many, is left alone, and the penalty is zero. -/
theorem C88_met (s : St) (cs : List (Con n)) (margin : ℝ) (beta : V n) (h : Meets beta cs margin) :
    ∃ st, linearConstraint s cs margin beta = some ⟨0, beta, st⟩ := by
  unfold linearConstraint
  rw [if_pos ((meets_iff _ _ _).2 h)]
  exact ⟨_, rfl⟩

theorem dist_lt_iff {a b c d : V n} : dist a b ≤ dist c d ↔ ∑ i, (a i - b i) ^ 2 ≤ ∑ i, (c i - d i) ^ 2 :=
  Real.sqrt_le_sqrt_iff (Finset.sum_nonneg fun i _ => sq_nonneg _)

theorem dist_eq_iff {a b c d : V n} : dist a b = dist c d ↔ ∑ i, (a i - b i) ^ 2 = ∑ i, (c i - d i) ^ 2 :=
  Real.sqrt_inj (Finset.sum_nonneg fun i _ => sq_nonneg _) (Finset.sum_nonneg fun i _ => sq_nonneg _)

theorem dist_pos_of_ne {a b : V n} (h : a ≠ b) : 0 < dist a b := by
  apply Real.sqrt_pos.2
  obtain ⟨i, hi⟩ := Function.ne_iff.1 h
  exact Finset.sum_pos' (fun i _ => sq_nonneg _) ⟨i, Finset.mem_univ i, by have := sub_ne_zero.2 hi; positivity⟩

theorem mag_pos {b : V n} (h : b ≠ 0) : 0 < magnitude b := by
  unfold magnitude
  rcases (Finset.sum_nonneg fun i _ => mul_self_nonneg (b i)).lt_or_eq with h0 | h0
  · exact h0
  · exact absurd (dotProduct_self_eq_zero.1 h0.symm) h

/-- A multiple of the constraint's vector added to bring it to the border is the nearest point. -/
theorem border_nearest (beta : V n) (b : V n) (K t : ℝ) (ht : 0 ≤ t) (hK : ∑ i, b i * (beta i + t * b i) = K) : NearestIn (fun x => K ≤ ∑ i, b i * x i) beta (fun i => beta i + t * b i) := by
  refine ⟨hK.ge, fun y hy => ?_⟩
  have key : ∑ i, (beta i - y i) ^ 2 = ∑ i, (beta i - (beta i + t * b i)) ^ 2 + (2 * t * (∑ i, b i * y i - ∑ i, b i * (beta i + t * b i)) + ∑ i, (y i - (beta i + t * b i)) ^ 2) := by
    rw [← Finset.sum_sub_distrib, Finset.mul_sum, ← Finset.sum_add_distrib, ← Finset.sum_add_distrib]
    exact Finset.sum_congr rfl fun i _ => by ring
  have h1 : 0 ≤ 2 * t * (∑ i, b i * y i - ∑ i, b i * (beta i + t * b i)) := by
    apply mul_nonneg (by linarith)
    rw [hK]; linarith
  have h2 : 0 ≤ ∑ i, (y i - (beta i + t * b i)) ^ 2 := Finset.sum_nonneg fun i _ => sq_nonneg _
  refine ⟨dist_lt_iff.2 (by linarith), fun he => ?_⟩
  rw [dist_eq_iff] at he
  have h3 : ∑ i, (y i - (beta i + t * b i)) ^ 2 = 0 := by linarith
  funext i
  have := (Finset.sum_eq_zero_iff_of_nonneg fun i _ => sq_nonneg _).1 h3 i (Finset.mem_univ i)
  exact sub_eq_zero.1 (pow_eq_zero_iff (two_ne_zero)|>.1 this)

/-- What one constraint that binds does. -/
theorem single_value (s : St) (c : Con n) (hc : c.b ≠ 0) (margin : ℝ) (beta : V n) (h : binds beta c margin) :
    ∃ st, linearConstraint s [c] margin beta = some ⟨dist beta (fun i => beta i + ((c.k - ∑ i, c.b i * beta i) / magnitude c.b + magnitude c.b * margin) * c.b i), fun i => beta i + ((c.k - ∑ i, c.b i * beta i) / magnitude c.b + magnitude c.b * margin) * c.b i, st⟩ := by
  unfold linearConstraint
  rw [if_neg (by simpa using h)]
  simp only [nearest, (mag_pos hc).ne', if_false, Option.map_some, addMargin, if_pos h]
  have e : (fun i => c.b i * -((c.b ⬝ᵥ beta - c.k) / magnitude c.b) + beta i + c.b i * magnitude c.b * margin) = fun i => beta i + ((c.k - ∑ i, c.b i * beta i) / magnitude c.b + magnitude c.b * margin) * c.b i := by
    funext i
    rw [show c.b ⬝ᵥ beta = ∑ i, c.b i * beta i from rfl]
    ring
  rw [e]
  exact ⟨_, rfl⟩

theorem single_border (b beta : V n) (hb : b ≠ 0) (k x : ℝ) : ∑ i, b i * (beta i + ((k - ∑ i, b i * beta i) / magnitude b + x) * b i) = k + magnitude b * x := by
  have hm := (mag_pos hb).ne'
  have : ∀ t : ℝ, ∑ i, b i * (beta i + t * b i) = ∑ i, b i * beta i + t * magnitude b := by
    intro t
    unfold magnitude dotProduct
    rw [Finset.mul_sum, ← Finset.sum_add_distrib]
    exact Finset.sum_congr rfl fun i _ => by ring
  rw [this]
  field_simp
  ring

/-- **C88 (one constraint).** A point that does not meet its one constraint is moved to the nearest point that does, and the penalty is the distance, which is positive. -/
theorem C88_single (s : St) (c : Con n) (hc : c.b ≠ 0) (beta : V n) (h : ¬ Meets beta [c] 0) :
    ∃ o, linearConstraint s [c] 0 beta = some o ∧ NearestIn (fun x => Meets x [c] 0) beta o.beta ∧ o.penalty = dist beta o.beta ∧ 0 < o.penalty := by
  have hb : binds beta c 0 := by
    by_contra hb
    exact h ((meets_iff _ _ _).1 (by simpa using hb))
  obtain ⟨st, he⟩ := single_value s c hc 0 beta hb
  rw [he]
  have hm := mag_pos hc
  have hlt : ∑ i, c.b i * beta i < c.k := by
    have := hb; unfold binds at this; rw [dotProduct_comm, add_zero] at this; exact this
  have hn : NearestIn (fun x => Meets x [c] 0) beta (fun i => beta i + ((c.k - ∑ i, c.b i * beta i) / magnitude c.b + magnitude c.b * 0) * c.b i) := by
    have := border_nearest beta c.b c.k ((c.k - ∑ i, c.b i * beta i) / magnitude c.b + magnitude c.b * 0) (by
      rw [mul_zero, add_zero]; exact div_nonneg (by linarith) hm.le) (by rw [single_border _ _ hc]; ring)
    have hS : (fun x : V n => Meets x [c] 0) = fun x => c.k ≤ ∑ i, c.b i * x i := by
      funext x; simp [Meets]
    rw [hS]; exact this
  refine ⟨_, rfl, hn, rfl, ?_⟩
  apply dist_pos_of_ne
  intro he
  apply h
  have := hn.1
  rwa [← he] at this

/-- **C88 (one constraint, margin).** If the constraint's vector is of length one, the point is moved to the nearest one that meets the constraint with the margin to spare. -/
theorem C88_single_margin (s : St) (c : Con n) (hc : ∑ i, c.b i ^ 2 = 1) (margin : ℝ) (beta : V n) (h : ¬ Meets beta [c] margin) :
    ∃ o, linearConstraint s [c] margin beta = some o ∧ NearestIn (fun x => Meets x [c] margin) beta o.beta ∧ o.penalty = dist beta o.beta := by
  have hm : magnitude c.b = 1 := by
    rw [← hc]; unfold magnitude dotProduct; exact Finset.sum_congr rfl fun i _ => by ring
  have hb0 : c.b ≠ 0 := by
    intro h0; rw [h0] at hc; simp at hc
  have hb : binds beta c margin := by
    by_contra hb
    exact h ((meets_iff _ _ _).1 (by simpa using hb))
  obtain ⟨st, he⟩ := single_value s c hb0 margin beta hb
  rw [he]
  refine ⟨_, rfl, ?_, rfl⟩
  have hlt : ∑ i, c.b i * beta i < c.k + margin := by
    have := hb; unfold binds at this; rw [dotProduct_comm] at this; exact this
  have := border_nearest beta c.b (c.k + margin) ((c.k - ∑ i, c.b i * beta i) / magnitude c.b + magnitude c.b * margin) (by
    rw [hm]; linarith) (by rw [single_border _ _ hb0, hm]; ring)
  have hS : (fun x : V n => Meets x [c] margin) = fun x => c.k + margin ≤ ∑ i, c.b i * x i := by
    funext x; simp [Meets]
  rw [hS]; exact this

/-- **C88 (margin) fails otherwise**: the point ends at `margin` times the *third power* of the length of the constraint's vector inside the border, not at `margin`. For any constraint that binds: -/
theorem C88_margin_refuted (s : St) (c : Con n) (hc : c.b ≠ 0) (margin : ℝ) (beta : V n) (h : ¬ Meets beta [c] margin) :
    ∃ o, linearConstraint s [c] margin beta = some o ∧ (∑ i, c.b i * o.beta i - c.k) / Real.sqrt (∑ i, c.b i ^ 2) = margin * Real.sqrt (∑ i, c.b i ^ 2) ^ 3 := by
  have hb : binds beta c margin := by
    by_contra hb
    exact h ((meets_iff _ _ _).1 (by simpa using hb))
  obtain ⟨st, he⟩ := single_value s c hc margin beta hb
  rw [he]
  refine ⟨_, rfl, ?_⟩
  rw [single_border _ _ hc]
  have hm : ∑ i, c.b i ^ 2 = magnitude c.b := by
    unfold magnitude dotProduct; exact Finset.sum_congr rfl fun i _ => by ring
  rw [hm]
  have hp := mag_pos hc
  have hs := Real.sqrt_pos.2 hp
  have hsq := Real.sq_sqrt hp.le
  rw [div_eq_iff hs.ne']
  nth_rw 1 [← hsq]
  nth_rw 2 [← hsq]
  ring

/-! ## The default constraint -/

/-- The constraint that element `i` be positive. -/
def pos (i : Fin n) : Con n := ⟨0, Pi.single i 1⟩

theorem mag_single (i : Fin n) : magnitude (Pi.single i (1 : ℝ)) = 1 := by simp [magnitude]

theorem nearest_pos (v : V n) (i : Fin n) : nearest v (pos i) = some (Function.update v i 0) := by
  simp only [nearest, pos, mag_single, one_ne_zero, if_false, Option.some.injEq]
  funext j
  by_cases h : j = i
  · subst h; simp
  · simp [h]

theorem binds_pos (v : V n) (i : Fin n) : binds v (pos i) 0 ↔ v i < 0 := by simp [binds, pos]

theorem dist_update (v : V n) (i : Fin n) (x : ℝ) : dist v (Function.update v i x) = |v i - x| := by
  unfold dist
  rw [Finset.sum_eq_single i]
  · rw [Function.update_self, Real.sqrt_sq_eq_abs]
  · intro j _ h; rw [Function.update_of_ne h]; simp
  · simp

theorem trig_pos {i j : Fin n} (h : i ≠ j) (x : ℝ) : trigBit (pos i).b (pos j).b x = some x := by
  have hc : costheta (pos i).b (pos j).b = 0 := by simp [costheta, pos, h]
  unfold trigBit
  rw [hc]
  simp [pos, mag_single]

theorem adapt_pos {i j : Fin n} (h : i ≠ j) (p : V n) (hp : p i ≤ 0) : adapt (pos i) (pos j) p = some (Function.update (Function.update p i 0) j 0) := by
  have e : addFix p (pos i) |p i| = Function.update p i 0 := by
    funext l
    by_cases hl : l = i
    · subst hl; simp [addFix, pos, mag_single, abs_of_nonpos hp]
    · simp [addFix, pos, hl]
  unfold adapt
  simp only [nearest_pos, Option.bind_some, dist_update, trig_pos h, Function.update_of_ne h, sub_zero, e]

/-- The elements in the list made zero if negative. -/
noncomputable def clampOn (l : List (Bool × Fin n)) (x : V n) : V n := fun j => if (false, j) ∈ l then max (x j) 0 else x j

theorem candLoop_pos (beta : V n) (i : Fin n) (hi : beta i < 0) (l : List (Bool × Fin n)) : (∀ q ∈ l, q.1 = decide (q.2 = i)) → ∀ (pb : Option (V n)) (cand : V n),
    cand = Function.update (pb.getD beta) i 0 → (pb.getD beta) i ≤ 0 → candLoop beta (pos i) 0 pb cand (l.map fun q => (q.1, pos q.2)) = some (clampOn l cand) := by
  induction l with
  | nil => intro _ pb cand _ _; simp only [List.map_nil, candLoop, Option.some.injEq]; funext j; simp [clampOn]
  | cons q l ih =>
    intro hl pb cand hc hp
    obtain ⟨b, j⟩ := q
    have hb := hl (b, j) (by simp)
    simp only at hb
    have hl' : ∀ q ∈ l, q.1 = decide (q.2 = i) := fun q hq => hl q (by simp [hq])
    simp only [List.map_cons, candLoop]
    by_cases hji : j = i
    · subst hji
      have hb' : b = true := by simpa using hb
      subst hb'
      rw [if_pos rfl, ih hl' pb cand hc hp]
      congr 1
      funext m; simp [clampOn]
    · have hb' : b = false := by simpa [hji] using hb
      subst hb'
      rw [if_neg (by simp)]
      by_cases hn : cand j < 0
      · rw [if_pos ((binds_pos _ _).2 hn), adapt_pos (Ne.symm hji) _ hp, Option.bind_some]
        rw [ih hl' _ _ (by rw [Option.getD_some]; funext m; by_cases hm : m = i
                           · subst hm; simp [Ne.symm hji]
                           · simp [hm]) (by rw [Option.getD_some]; simp [Ne.symm hji])]
        rw [← hc]
        congr 1
        funext m
        by_cases hm : m = j
        · subst hm; simp [clampOn, max_eq_right hn.le]
        · simp [clampOn, hm]
      · rw [if_neg (by rw [binds_pos]; exact hn), ih hl' pb cand hc hp]
        congr 1
        funext m
        by_cases hm : m = j
        · subst hm; simp [clampOn, max_eq_left (not_lt.1 hn)]
        · simp [clampOn, hm]

theorem positive_eq (n : ℕ) : positive n = (List.finRange n).map pos := by
  rw [positive, List.ofFn_eq_map]; rfl

theorem mark_pos (i : Fin n) : mark i.val (positive n) = ((List.finRange n).map fun j => (decide (j = i), j)).map fun q => (q.1, pos q.2) := by
  apply List.ext_getElem
  · simp [mark, positive]
  · intro k h1 h2
    simp [mark, positive, pos, Fin.ext_iff]

theorem candidate_pos (beta : V n) (i : Fin n) (hi : beta i < 0) : candidate beta (positive n) i.val (pos i) 0 = some fun j => max (beta j) 0 := by
  unfold candidate
  rw [nearest_pos, Option.bind_some, mark_pos]
  have hk := candLoop_pos beta i hi _ (by
    intro q hq
    obtain ⟨j, _, rfl⟩ := List.mem_map.1 hq
    rfl : ∀ q ∈ (List.finRange n).map fun j => (decide (j = i), j), q.1 = decide (q.2 = i)) none _ rfl hi.le
  rw [Option.getD_none] at hk
  rw [hk]
  congr 1
  funext j
  by_cases hj : j = i
  · subst hj
    simp [clampOn, max_eq_right hi.le]
  · simp [clampOn, hj]

theorem search_const (beta x : V n) (cs : List (Con n)) (m : ℝ) (l : List (Con n)) : ∀ (closest : Option (V n)) (i : ℕ),
    (∀ j c, l[j]? = some c → binds beta c m → candidate beta cs (i + j) c m = some x) → (∀ p ∈ closest, ¬ dist beta x < dist beta p → p = x) →
    ((∃ c ∈ l, binds beta c m) ∨ closest = some x) → search beta cs m closest i l = some (some x) := by
  induction l with
  | nil =>
    intro closest i _ _ h
    simpa [search] using h
  | cons c l ih =>
    intro closest i h1 h2 h3
    rw [search]
    have h1' : ∀ j c, l[j]? = some c → binds beta c m → candidate beta cs (i + 1 + j) c m = some x := by
      intro j c' hj hb
      have := h1 (j + 1) c' (by simpa using hj) hb
      rwa [show i + (j + 1) = i + 1 + j by omega] at this
    by_cases hb : binds beta c m
    · have h10 := h1 0 c (by simp) hb
      rw [Nat.add_zero] at h10
      rw [if_pos hb, h10, Option.bind_some]
      by_cases hn : nearer beta x closest
      · rw [if_pos hn]
        exact ih _ _ h1' (by simp) (Or.inr rfl)
      · rw [if_neg hn]
        unfold nearer at hn
        push Not at hn
        obtain ⟨p, hp, hd⟩ := hn
        have := h2 p hp (not_lt.2 hd)
        subst this
        exact ih _ _ h1' h2 (Or.inr hp)
    · rw [if_neg hb]
      refine ih _ _ h1' h2 ?_
      rcases h3 with ⟨c', hc', hb'⟩ | h
      · rcases List.mem_cons.1 hc' with rfl | h
        · exact absurd hb' hb
        · exact Or.inl ⟨c', h, hb'⟩
      · exact Or.inr h

theorem clamp_nearest (beta : V n) : NearestIn (fun x => ∀ i, 0 ≤ x i) beta fun i => max (beta i) 0 := by
  refine ⟨fun i => le_max_right _ _, fun y hy => ?_⟩
  have key : ∀ i, (beta i - max (beta i) 0) ^ 2 + (y i - max (beta i) 0) ^ 2 ≤ (beta i - y i) ^ 2 := by
    intro i
    have := hy i
    rcases le_total (beta i) 0 with h | h
    · rw [max_eq_right h]; nlinarith
    · rw [max_eq_left h]; nlinarith
  have hs := Finset.sum_le_sum fun i (_ : i ∈ Finset.univ) => key i
  rw [Finset.sum_add_distrib] at hs
  have h2 : 0 ≤ ∑ i, (y i - max (beta i) 0) ^ 2 := Finset.sum_nonneg fun i _ => sq_nonneg _
  refine ⟨dist_lt_iff.2 (by linarith), fun he => ?_⟩
  rw [dist_eq_iff] at he
  have h3 : ∑ i, (y i - max (beta i) 0) ^ 2 = 0 := by linarith
  funext i
  have := (Finset.sum_eq_zero_iff_of_nonneg fun i _ => sq_nonneg _).1 h3 i (Finset.mem_univ i)
  exact sub_eq_zero.1 (pow_eq_zero_iff (two_ne_zero)|>.1 this)

theorem meets_positive (x : V n) : Meets x (positive n) 0 ↔ ∀ i, 0 ≤ x i := by
  rw [← meets_iff, positive_eq]
  simp [binds_pos]

/-- The state after calls with the default constraint and no margin, or with one constraint and any margin, in any order and sizes. -/
inductive Reach : St → Prop
  | start : Reach ⟨0, none⟩
  | dflt {n : ℕ} {s : St} {beta : V n} {o : Out n} : Reach s → linearConstraint s (positive n) 0 beta = some o → Reach o.st
  | single {n : ℕ} {s : St} {beta : V n} {c : Con n} {m : ℝ} {o : Out n} : Reach s → linearConstraint s [c] m beta = some o → Reach o.st

theorem multi (s : St) (cs : List (Con n)) (m : ℝ) (beta : V n) (h1 : ¬ Meets beta cs m) (h2 : cs.length ≠ 1) :
    linearConstraint s cs m beta = (search beta cs m (s.fetch n) 0 cs).bind fun closest => closest.map fun x =>
        ⟨dist beta (addMargin beta m x cs), addMargin beta m x cs, ⟨n, some x⟩⟩ := by
  unfold linearConstraint
  rw [if_neg (by rwa [meets_iff])]
  match cs, h2 with
  | [], _ => rfl
  | [c], h => simp at h
  | _ :: _ :: _, _ => rfl

theorem addMargin_zero (beta : V n) (cs : List (Con n)) : ∀ x, addMargin beta 0 x cs = x := by
  induction cs with
  | nil => intro x; rfl
  | cons c cs ih => intro x; rw [addMargin, ih]; simp

theorem default_call (s : St) (hs : ∀ p ∈ s.fetch n, ∀ i, 0 ≤ p i) (beta : V n) :
    ∃ o, linearConstraint s (positive n) 0 beta = some o ∧ (o.beta = fun i => max (beta i) 0) ∧ o.penalty = dist beta o.beta ∧ (o.st = ⟨n, s.fetch n⟩ ∨ o.st = ⟨n, some o.beta⟩) := by
  by_cases hm : Meets beta (positive n) 0
  · unfold linearConstraint
    rw [if_pos ((meets_iff _ _ _).2 hm)]
    refine ⟨_, rfl, ?_, ?_, Or.inl rfl⟩
    · funext i
      exact (max_eq_left ((meets_positive beta).1 hm i)).symm
    · simp [dist]
  · by_cases h1 : (positive n).length = 1
    · have hn : n = 1 := by simpa [positive] using h1
      subst hn
      have e : positive 1 = [pos 0] := by rw [positive_eq]; rfl
      rw [e] at hm ⊢
      have hst : ∀ o, linearConstraint s [pos 0] 0 beta = some o → o.st = ⟨1, s.fetch 1⟩ := by
        intro o ho
        unfold linearConstraint at ho
        rw [if_neg (by rwa [meets_iff])] at ho
        simp only [nearest_pos, Option.map_some, Option.some.injEq] at ho
        rw [← ho]
      have hp0 : (pos (0 : Fin 1)).b ≠ 0 := by simp [pos]
      obtain ⟨o, ho, hn, hp, _⟩ := C88_single s (pos 0) hp0 beta hm
      refine ⟨o, ho, ?_, hp, Or.inl (hst o ho)⟩
      have hcl := clamp_nearest beta
      have hS : ∀ x : V 1, Meets x [pos 0] 0 ↔ ∀ i, 0 ≤ x i := by rw [← e]; exact meets_positive
      have a := (hn.2 _ ((hS _).2 hcl.1)).1
      have b := hcl.2 _ ((hS _).1 hn.1)
      exact b.2 (le_antisymm a b.1)
    · rw [multi s _ _ _ hm h1]
      have hex : ∃ c ∈ positive n, binds beta c 0 := by
        by_contra hne
        push Not at hne
        exact hm ((meets_iff _ _ _).1 hne)
      rw [search_const beta (fun j => max (beta j) 0) (positive n) 0 (positive n) (s.fetch n) 0 ?_ ?_ (Or.inl hex)]
      · refine ⟨_, rfl, ?_, rfl, Or.inr ?_⟩
        · simp only [addMargin_zero]
        · simp only [addMargin_zero]
      · intro j c hj hb
        rw [positive_eq, List.getElem?_map] at hj
        obtain ⟨i, hi, rfl⟩ := Option.map_eq_some_iff.1 hj
        have hji : i.val = j := by
          obtain ⟨h1, h2⟩ := List.getElem?_eq_some_iff.1 hi
          rw [← h2]; simp
        rw [Nat.zero_add, ← hji]
        exact candidate_pos beta i ((binds_pos _ _).1 hb)
      · intro p hp hd
        have := (clamp_nearest beta).2 p (hs p hp)
        exact this.2 (le_antisymm (not_lt.1 hd) this.1)

theorem fetch_mk (n m : ℕ) (p : Option (V n)) (h : ∀ q ∈ p, ∀ i, 0 ≤ q i) : ∀ q ∈ St.fetch ⟨n, p⟩ m, ∀ i, 0 ≤ q i := by
  unfold St.fetch
  split
  · rename_i h'
    simp only at h'
    subst h'
    exact h
  · simp

theorem reach_fetch {s : St} (h : Reach s) : ∀ (m : ℕ), ∀ p ∈ s.fetch m, ∀ i, 0 ≤ p i := by
  induction h with
  | start => exact fun m => fetch_mk 0 m none (by simp)
  | @dflt n s beta o hs ho ih =>
    intro m
    obtain ⟨o', ho', hb, _, hst⟩ := default_call s (ih n) beta
    rw [ho] at ho'
    cases ho'
    rcases hst with h | h
    · rw [h]; exact fetch_mk n m _ (ih n)
    · rw [h]; refine fetch_mk n m _ ?_
      intro q hq i
      simp only [Option.mem_def, Option.some.injEq] at hq
      rw [← hq, hb]
      exact le_max_right _ _
  | @single n s beta c mg o hs ho ih =>
    intro m
    have : o.st = ⟨n, s.fetch n⟩ := by
      unfold linearConstraint at ho
      split_ifs at ho with h
      · cases ho; rfl
      · cases hn : nearest beta c with
        | none => simp only [hn] at ho; simp at ho
        | some x => simp only [hn, Option.map_some, Option.some.injEq] at ho; rw [← ho]
    rw [this]
    exact fetch_mk n m _ (ih n)

/-- **C88 (default).** With the default constraint, for points of any size and after any history of such calls (the scratch vector lives from call to call), the point is moved to the nearest one without negative elements, that is, negative elements are made zero, and the penalty is the distance. -/
theorem C88_default (s : St) (hs : Reach s) (beta : V n) : ∃ o, linearConstraint s (positive n) 0 beta = some o ∧ (o.beta = fun i => max (beta i) 0) ∧
    NearestIn (fun x => ∀ i, 0 ≤ x i) beta o.beta ∧ o.penalty = dist beta o.beta ∧ (o.penalty = 0 ↔ ∀ i, 0 ≤ beta i) := by
  obtain ⟨o, ho, hb, hp, _⟩ := default_call s (reach_fetch hs n) beta
  refine ⟨o, ho, hb, by rw [hb]; exact clamp_nearest beta, hp, ?_⟩
  rw [hp]
  constructor
  · intro h0 i
    by_contra hi
    have : beta ≠ o.beta := by
      intro he
      apply hi
      have := congrFun he i
      rw [hb] at this
      rw [this]; exact le_max_right _ _
    exact absurd h0 (dist_pos_of_ne this).ne'
  · intro h
    have : o.beta = beta := by rw [hb]; funext i; exact max_eq_left (h i)
    rw [this]; simp [dist]

/-! ## Where it fails -/

theorem trig_value (a b : V n) (off : ℝ) (c : ℝ) (hc : costheta a b = c) (hm : magnitude a * magnitude b ≠ 0) (h1 : c ^ 2 < 1) : trigBit a b off = some (off / (1 - c ^ 2)) := by
  have hs : Real.sin (Real.arccos c) ^ 2 = 1 - c ^ 2 := by
    rw [Real.sin_arccos, Real.sq_sqrt (by linarith)]
  have h0 : Real.sin (Real.arccos c) ≠ 0 := by
    intro h; rw [h] at hs; norm_num at hs; linarith
  have hab : ¬ 1 < |c| := by
    rw [not_lt, ← abs_one, ← sq_le_sq]; linarith
  unfold trigBit
  rw [hc, if_neg (by simp [hm, hab, h0]), hs]

/-- **C88 (several constraints) fails**: with the constraints 0 ≤ -3x - 3y and 0 ≤ y the point (1, -1) is moved to (17/35, -17/35), which does not meet the second. (The cosine is found with squared lengths for lengths.) -/
theorem C88_several_refuted : ∃ o, linearConstraint ⟨0, none⟩ [⟨0, ![-3, -3]⟩, ⟨0, ![0, 1]⟩] 0 ![1, -1] = some o ∧ o.beta = ![17 / 35, -17 / 35] ∧ ¬ Meets o.beta [⟨0, ![-3, -3]⟩, ⟨0, ![0, 1]⟩] 0 := by
  have hm1 : magnitude ![(-3 : ℝ), -3] = 18 := by norm_num [magnitude, dotProduct, Fin.sum_univ_two]
  have hm2 : magnitude ![(0 : ℝ), 1] = 1 := by norm_num [magnitude, dotProduct, Fin.sum_univ_two]
  have hN : ¬ Meets ![(1 : ℝ), -1] [⟨0, ![-3, -3]⟩, ⟨0, ![0, 1]⟩] 0 := by
    intro h
    have := h ⟨0, ![0, 1]⟩ (by simp)
    norm_num [Fin.sum_univ_two] at this
  have hb1 : ¬ binds ![(1 : ℝ), -1] ⟨0, ![-3, -3]⟩ 0 := by norm_num [binds, dotProduct, Fin.sum_univ_two]
  have hb2 : binds ![(1 : ℝ), -1] ⟨0, ![0, 1]⟩ 0 := by norm_num [binds, dotProduct, Fin.sum_univ_two]
  have hn1 : nearest ![(1 : ℝ), -1] ⟨0, ![0, 1]⟩ = some ![1, 0] := by
    simp only [nearest, hm2, one_ne_zero, if_false, Option.some.injEq]
    funext i; fin_cases i <;> norm_num [dotProduct, Fin.sum_univ_two]
  have hn2 : nearest ![(1 : ℝ), -1] ⟨0, ![-3, -3]⟩ = some ![1, -1] := by
    simp only [nearest, hm1]
    rw [if_neg (by norm_num)]
    congr 1
    funext i; fin_cases i <;> norm_num [dotProduct, Fin.sum_univ_two]
  have hb3 : binds ![(1 : ℝ), 0] ⟨0, ![-3, -3]⟩ 0 := by norm_num [binds, dotProduct, Fin.sum_univ_two]
  have hd : dist ![(1 : ℝ), -1] ![1, 0] = 1 := by norm_num [dist, Fin.sum_univ_two]
  have ht : trigBit ![(0 : ℝ), 1] ![-3, -3] 1 = some (36 / 35) := by
    rw [trig_value _ _ _ (-1 / 6) (by rw [costheta, hm1, hm2]; norm_num [dotProduct, Fin.sum_univ_two]) (by rw [hm1, hm2]; norm_num) (by norm_num)]
    norm_num
  have hn3 : nearest (addFix ![(1 : ℝ), -1] ⟨0, ![0, 1]⟩ (36 / 35)) ⟨0, ![-3, -3]⟩ = some ![17 / 35, -17 / 35] := by
    simp only [nearest, hm1]
    rw [if_neg (by norm_num)]
    congr 1
    funext i; fin_cases i <;> norm_num [dotProduct, Fin.sum_univ_two, addFix, hm2]
  have ha : adapt ⟨0, ![0, 1]⟩ ⟨0, ![-3, -3]⟩ ![(1 : ℝ), -1] = some ![17 / 35, -17 / 35] := by
    unfold adapt
    simp only [hn2, hn1, Option.bind_some, hd, ht, hn3]
  have hcand : candidate ![(1 : ℝ), -1] [⟨0, ![-3, -3]⟩, ⟨0, ![0, 1]⟩] 1 ⟨0, ![0, 1]⟩ 0 = some ![17 / 35, -17 / 35] := by
    unfold candidate
    rw [hn1, Option.bind_some]
    simp [mark, candLoop, hb3, ha]
  have hr : linearConstraint ⟨0, none⟩ [⟨0, ![-3, -3]⟩, ⟨0, ![0, 1]⟩] 0 ![1, -1] = some ⟨dist ![1, -1] ![17 / 35, -17 / 35], ![17 / 35, -17 / 35], ⟨2, some ![17 / 35, -17 / 35]⟩⟩ := by
    rw [multi _ _ _ _ hN (by simp)]
    have hf : St.fetch ⟨0, none⟩ 2 = none := by simp [St.fetch]
    rw [hf]
    simp only [search, if_neg hb1, if_pos hb2, Nat.zero_add, hcand, Option.bind_some]
    rw [if_pos (by simp [nearer])]
    simp only [Option.map_some, addMargin_zero]
  refine ⟨_, hr, rfl, ?_⟩
  intro h
  have := h ⟨0, ![0, 1]⟩ (by simp)
  norm_num [Fin.sum_univ_two] at this

/-- **C88 (history) fails**: what was found in an earlier call is kept if it is nearer than what is found now, though it may not meet the constraints now in force. For any constraints, and any scratch point nearer than the one point all candidates agree on: -/
theorem C88_history_refuted (x p beta : V n) (cs : List (Con n)) (hn : cs.length ≠ 1) (hb : ¬ Meets beta cs 0) (hc : ∀ j c, cs[j]? = some c → binds beta c 0 → candidate beta cs j c 0 = some x) (hp : dist beta p ≤ dist beta x) :
    ∃ o, linearConstraint ⟨n, some p⟩ cs 0 beta = some o ∧ o.beta = p := by
  rw [multi _ _ _ _ hb hn]
  have hf : St.fetch ⟨n, some p⟩ n = some p := by simp [St.fetch]
  have key : ∀ (l : List (Con n)) (i : ℕ), (∀ j c, l[j]? = some c → binds beta c 0 → candidate beta cs (i + j) c 0 = some x) → search beta cs 0 (some p) i l = some (some p) := by
    intro l
    induction l with
    | nil => intro i _; rfl
    | cons c l ih =>
      intro i h
      have h' := ih (i + 1) (fun j c' hj hb => by
        have := h (j + 1) c' (by simpa using hj) hb
        rwa [show i + (j + 1) = i + 1 + j by omega] at this)
      rw [search]
      by_cases hb : binds beta c 0
      · have h10 := h 0 c (by simp) hb
        rw [Nat.add_zero] at h10
        rw [if_pos hb, h10, Option.bind_some, if_neg (by simp [nearer, hp]), h']
      · rw [if_neg hb, h']
  rw [hf, key cs 0 (fun j c hj hb => by rw [Nat.zero_add]; exact hc j c hj hb)]
  exact ⟨_, rfl, by simp [addMargin_zero]⟩

/-- So it happens: after a call with the default constraint at (-1, 5), one with 3 ≤ x and 0 ≤ y at the same point gives (0, 5). -/
theorem C88_history_case_refuted : ∃ o o', linearConstraint ⟨0, none⟩ (positive 2) 0 ![-1, 5] = some o ∧ linearConstraint o.st [⟨3, ![1, 0]⟩, ⟨0, ![0, 1]⟩] 0 ![-1, 5] = some o' ∧ o'.beta = ![0, 5] ∧ ¬ Meets o'.beta [⟨3, ![1, 0]⟩, ⟨0, ![0, 1]⟩] 0 := by
  obtain ⟨o, ho, hb, _, hst⟩ := default_call ⟨0, none⟩ (reach_fetch .start 2) ![-1, 5]
  have hb' : o.beta = ![0, 5] := by rw [hb]; funext i; fin_cases i <;> norm_num
  have hf : St.fetch ⟨0, none⟩ 2 = none := by simp [St.fetch]
  have hst' : o.st = ⟨2, some ![0, 5]⟩ := by
    rcases hst with h | h
    · exfalso
      have hm : ¬ Meets ![(-1 : ℝ), 5] (positive 2) 0 := by
        rw [meets_positive]; intro h; have := h 0; norm_num at this
      rw [multi _ _ _ _ hm (by simp [positive])] at ho
      cases hs : search ![(-1 : ℝ), 5] (positive 2) 0 (St.fetch ⟨0, none⟩ 2) 0 (positive 2) with
      | none => rw [hs] at ho; simp at ho
      | some c =>
        cases c with
        | none => rw [hs] at ho; simp at ho
        | some c =>
          rw [hs] at ho
          simp only [Option.bind_some, Option.map_some, Option.some.injEq] at ho
          rw [← ho, hf] at h
          simp at h
    · rw [h, hb']
  have hm : ¬ Meets ![(-1 : ℝ), 5] [⟨3, ![1, 0]⟩, ⟨0, ![0, 1]⟩] 0 := by
    intro h
    have := h ⟨3, ![1, 0]⟩ (by simp)
    norm_num [Fin.sum_univ_two] at this
  have hm1 : magnitude ![(1 : ℝ), 0] = 1 := by norm_num [magnitude, dotProduct, Fin.sum_univ_two]
  have hn1 : nearest ![(-1 : ℝ), 5] ⟨3, ![1, 0]⟩ = some ![3, 5] := by
    simp only [nearest, hm1, one_ne_zero, if_false, Option.some.injEq]
    funext i; fin_cases i <;> norm_num [dotProduct, Fin.sum_univ_two]
  have hb2 : ¬ binds ![(-1 : ℝ), 5] ⟨0, ![0, 1]⟩ 0 := by norm_num [binds, dotProduct, Fin.sum_univ_two]
  have hb3 : ¬ binds ![(3 : ℝ), 5] ⟨0, ![0, 1]⟩ 0 := by norm_num [binds, dotProduct, Fin.sum_univ_two]
  obtain ⟨o', ho', hp⟩ := C88_history_refuted ![(3 : ℝ), 5] ![0, 5] ![-1, 5] [⟨3, ![1, 0]⟩, ⟨0, ![0, 1]⟩] (by simp) hm (by
    intro j c hj hbc
    match j with
    | 0 =>
      simp only [List.getElem?_cons_zero, Option.some.injEq] at hj
      subst hj
      unfold candidate
      rw [hn1, Option.bind_some]
      simp [mark, candLoop, hb3]
    | 1 =>
      simp only [List.getElem?_cons_succ, List.getElem?_cons_zero, Option.some.injEq] at hj
      subst hj
      exact absurd hbc hb2
    | j + 2 => simp at hj) (by
    rw [dist_lt_iff]; norm_num [Fin.sum_univ_two])
  refine ⟨o, o', ho, by rw [hst']; exact ho', hp, ?_⟩
  rw [hp]
  intro h
  have := h ⟨3, ![1, 0]⟩ (by simp)
  norm_num [Fin.sum_univ_two] at this

/-- The hypotheses are met: 1 ≤ 3x + 4y at (-1, 0), and the default at (-1, 5, -2). -/
example : ¬ Meets ![(-1 : ℝ), 0] [⟨1, ![3, 4]⟩] 0 ∧ (![3, 4] : V 2) ≠ 0 := by
  refine ⟨fun h => ?_, fun h => by have := congrFun h 0; norm_num at this⟩
  have := h ⟨1, ![3, 4]⟩ (by simp)
  norm_num [Fin.sum_univ_two] at this

example : ∃ o, linearConstraint ⟨0, none⟩ (positive 3) 0 ![-1, 5, -2] = some o ∧ o.beta = ![0, 5, 0] := by
  obtain ⟨o, ho, hb, _⟩ := C88_default ⟨0, none⟩ .start ![(-1 : ℝ), 5, -2]
  refine ⟨o, ho, ?_⟩
  rw [hb]; funext i; fin_cases i <;> norm_num

end Apop.LinCon
