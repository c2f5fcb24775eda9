import Verif.Stats.Variance
import Mathlib.Analysis.Real.Sqrt
import Mathlib.Tactic.Linarith
import Mathlib.Tactic.FieldSimp
import Mathlib.Tactic.Ring

/-! # C103: moments in SQL queries -/

namespace Apop.Sql
open Apop.Stats

/-! ## The model (exact arithmetic; SQLite) -/

/-- A value in a column: NULL or a number. -/
inductive Value where
  | null
  | num (x : ℝ)

/-- `sqlite3_value_double`: zero for NULL (SQLite's documentation). The test `argv[0]` is for a pointer that is never zero. -/
def Value.double : Value → ℝ
  | .null => 0
  | .num x => x

/-- `StdDevCtx`, apop_db_sqlite.c:14-21; all zero at first. -/
structure Ctx where
  avg : ℝ
  avg2 : ℝ
  avg3 : ℝ
  avg4 : ℝ
  cnt : ℕ

/-- At first: zeros. -/
def Ctx.zero : Ctx := ⟨0, 0, 0, 0, 0⟩

/-- `twoStep`, apop_db_sqlite.c:24-36. -/
noncomputable def twoStep (p : Ctx) (v : Value) : Ctx :=
  let x := v.double
  let ratio : ℝ := p.cnt / (p.cnt + 1)
  let cnt := p.cnt + 1
  { p with cnt := cnt, avg := p.avg * ratio + x / cnt, avg2 := p.avg2 * ratio + x ^ 2 / cnt }

/-- `threeStep`, apop_db_sqlite.c:38-52. -/
noncomputable def threeStep (p : Ctx) (v : Value) : Ctx :=
  let x := v.double
  let ratio : ℝ := p.cnt / (p.cnt + 1)
  let cnt := p.cnt + 1
  { p with cnt := cnt, avg := p.avg * ratio + x / cnt, avg2 := p.avg2 * ratio + x ^ 2 / cnt, avg3 := p.avg3 * ratio + x ^ 3 / cnt }

/-- `fourStep`, apop_db_sqlite.c:54-65. -/
noncomputable def fourStep (p : Ctx) (v : Value) : Ctx :=
  let x := v.double
  let cnt := p.cnt + 1
  { p with cnt := cnt, avg := (x + p.avg * (cnt - 1)) / cnt, avg2 := (x ^ 2 + p.avg2 * (cnt - 1)) / cnt,
           avg3 := (x ^ 3 + p.avg3 * (cnt - 1)) / cnt, avg4 := (x ^ 4 + p.avg4 * (cnt - 1)) / cnt }

/-- What a query gives: NULL, or a number; `nan` stands for a division by zero. -/
inductive Result where
  | null
  | num (x : ℝ)
  | nan

/-- The `if`s of the functions that finish, e.g. apop_db_sqlite.c:70-73: two or more rows, one, none. -/
noncomputable def finalize (p : Ctx) (r : Result) : Result := if p.cnt > 1 then r else if p.cnt = 1 then .num 0 else .null

/-- `stdDevFinalizePop`, apop_db_sqlite.c:68-74. -/
noncomputable def stdDevFinalizePop (p : Ctx) : Result := finalize p (.num (Real.sqrt (p.avg2 - p.avg ^ 2)))

/-- `varFinalizePop`, apop_db_sqlite.c:76-82. -/
noncomputable def varFinalizePop (p : Ctx) : Result := finalize p (.num (p.avg2 - p.avg ^ 2))

/-- `stdDevFinalize`, apop_db_sqlite.c:84-92. -/
noncomputable def stdDevFinalize (p : Ctx) : Result := finalize p (.num (Real.sqrt ((p.avg2 - p.avg ^ 2) * p.cnt / ((p.cnt : ℝ) - 1))))

/-- `varFinalize`, apop_db_sqlite.c:94-102. -/
noncomputable def varFinalize (p : Ctx) : Result := finalize p (.num ((p.avg2 - p.avg ^ 2) * p.cnt / ((p.cnt : ℝ) - 1)))

/-- `skewFinalize`, apop_db_sqlite.c:104-113; for two rows it divides by zero. -/
noncomputable def skewFinalize (p : Ctx) : Result :=
  finalize p (if p.cnt = 2 then .nan else .num ((p.avg3 * p.cnt - 3 * p.avg2 * p.avg * p.cnt + 2 * p.cnt * p.avg ^ 3) * p.cnt / (((p.cnt : ℝ) - 1) * (p.cnt - 2))))

/-- The formula of `kurtFinalize`, apop_db_sqlite.c:118-125. -/
noncomputable def kurtOf (n avg avg2 avg3 avg4 : ℝ) : ℝ :=
  let kurtovern := avg4 - 4 * avg3 * avg + 6 * avg2 * avg ^ 2 - 3 * avg ^ 4
  let var := avg2 - avg ^ 2
  let coeff0 := n * n / (n ^ 3 * (n ^ 2 - 3 * n + 3))
  let coeff1 := n * (n - 1) ^ 2 + (6 * n - 9)
  let coeff2 := n * (6 * n - 9)
  coeff0 * (coeff1 * kurtovern + coeff2 * var ^ 2)

/-- `kurtFinalize`, apop_db_sqlite.c:115-128. -/
noncomputable def kurtFinalize (p : Ctx) : Result := finalize p (.num (kurtOf p.cnt p.avg p.avg2 p.avg3 p.avg4))

/-- The functions registered, apop_db_sqlite.c:153-163, applied to a group of rows; `none`: no such function. -/
noncomputable def aggregate (name : String) (l : List Value) : Option Result :=
  if name = "stddev" then some (stdDevFinalize (l.foldl twoStep .zero))
  else if name = "std" then some (stdDevFinalizePop (l.foldl twoStep .zero))
  else if name = "stddev_samp" then some (stdDevFinalize (l.foldl twoStep .zero))
  else if name = "stddev_pop" then some (stdDevFinalizePop (l.foldl twoStep .zero))
  else if name = "var" then some (varFinalize (l.foldl twoStep .zero))
  else if name = "var_samp" then some (varFinalize (l.foldl twoStep .zero))
  else if name = "var_pop" then some (varFinalizePop (l.foldl twoStep .zero))
  else if name = "variance" then some (varFinalizePop (l.foldl twoStep .zero))
  else if name = "skew" then some (skewFinalize (l.foldl threeStep .zero))
  else if name = "kurt" then some (kurtFinalize (l.foldl fourStep .zero))
  else if name = "kurtosis" then some (kurtFinalize (l.foldl fourStep .zero))
  else none

/-! ## Specification -/

/-- The k-th population moment about the mean. -/
noncomputable def central (k : ℕ) (v : List ℝ) : ℝ := (v.map fun x => (x - v.sum / v.length) ^ k).sum / v.length

/-- The sample variance. -/
noncomputable def sampleVar (v : List ℝ) : ℝ := (v.map fun x => (x - v.sum / v.length) ^ 2).sum / ((v.length : ℝ) - 1)

/-! ## Proofs -/

/-- The average of the k-th powers. -/
noncomputable def raw (k : ℕ) (v : List ℝ) : ℝ := (v.map fun x => x ^ k).sum / v.length

theorem foldl_snoc {α β : Type} (f : β → α → β) (b : β) (l : List α) (a : α) : (l ++ [a]).foldl f b = f (l.foldl f b) a := by simp

theorem raw_snoc (k : ℕ) (v : List ℝ) (x : ℝ) : raw k (v ++ [x]) = raw k v * ((v.length : ℝ) / (v.length + 1)) + x ^ k / (v.length + 1) := by
  have h : ((v.length : ℝ) + 1) ≠ 0 := by positivity
  unfold raw
  rw [List.map_append, List.sum_append, List.length_append]
  simp only [List.map_cons, List.map_nil, List.sum_cons, List.sum_nil, List.length_cons, List.length_nil]
  push_cast
  rcases Nat.eq_zero_or_pos v.length with h0 | h0
  · have : v = [] := List.length_eq_zero_iff.1 h0
    subst this
    simp
  · have : (v.length : ℝ) ≠ 0 := by positivity
    field_simp
    ring

theorem two_eq (l : List Value) : (l.foldl twoStep .zero).cnt = l.length ∧ (l.foldl twoStep .zero).avg = raw 1 (l.map Value.double) ∧ (l.foldl twoStep .zero).avg2 = raw 2 (l.map Value.double) := by
  induction l using List.reverseRecOn with
  | nil => simp [Ctx.zero, raw]
  | append_singleton l a ih =>
    obtain ⟨h1, h2, h3⟩ := ih
    rw [foldl_snoc, List.map_append, List.map_cons, List.map_nil, raw_snoc, raw_snoc]
    simp only [twoStep, h1, h2, h3, List.length_append, List.length_cons, List.length_nil, List.length_map]
    refine ⟨trivial, ?_, ?_⟩
    · push_cast; ring
    · push_cast; ring

theorem three_eq (l : List Value) : (l.foldl threeStep .zero).cnt = l.length ∧ (l.foldl threeStep .zero).avg = raw 1 (l.map Value.double) ∧
    (l.foldl threeStep .zero).avg2 = raw 2 (l.map Value.double) ∧ (l.foldl threeStep .zero).avg3 = raw 3 (l.map Value.double) := by
  induction l using List.reverseRecOn with
  | nil => simp [Ctx.zero, raw]
  | append_singleton l a ih =>
    obtain ⟨h1, h2, h3, h4⟩ := ih
    rw [foldl_snoc, List.map_append, List.map_cons, List.map_nil, raw_snoc, raw_snoc, raw_snoc]
    simp only [threeStep, h1, h2, h3, h4, List.length_append, List.length_cons, List.length_nil, List.length_map]
    refine ⟨trivial, ?_, ?_, ?_⟩ <;> (push_cast; ring)

theorem four_eq (l : List Value) : (l.foldl fourStep .zero).cnt = l.length ∧ (l.foldl fourStep .zero).avg = raw 1 (l.map Value.double) ∧
    (l.foldl fourStep .zero).avg2 = raw 2 (l.map Value.double) ∧ (l.foldl fourStep .zero).avg3 = raw 3 (l.map Value.double) ∧ (l.foldl fourStep .zero).avg4 = raw 4 (l.map Value.double) := by
  induction l using List.reverseRecOn with
  | nil => simp [Ctx.zero, raw]
  | append_singleton l a ih =>
    obtain ⟨h1, h2, h3, h4, h5⟩ := ih
    rw [foldl_snoc, List.map_append, List.map_cons, List.map_nil, raw_snoc, raw_snoc, raw_snoc, raw_snoc]
    have h : ((l.length : ℝ) + 1) ≠ 0 := by positivity
    simp only [fourStep, h1, h2, h3, h4, h5, List.length_append, List.length_cons, List.length_nil, List.length_map]
    refine ⟨trivial, ?_, ?_, ?_, ?_⟩ <;> (push_cast; field_simp; ring)

theorem sum_pow2 (m : ℝ) (v : List ℝ) : (v.map fun x => (x - m) ^ 2).sum = (v.map fun x => x ^ 2).sum - 2 * m * (v.map fun x => x ^ 1).sum + v.length * m ^ 2 := by
  induction v with
  | nil => simp
  | cons x v ih => simp only [List.map_cons, List.sum_cons, ih, List.length_cons]; push_cast; ring

theorem sum_pow3 (m : ℝ) (v : List ℝ) : (v.map fun x => (x - m) ^ 3).sum = (v.map fun x => x ^ 3).sum - 3 * m * (v.map fun x => x ^ 2).sum + 3 * m ^ 2 * (v.map fun x => x ^ 1).sum - v.length * m ^ 3 := by
  induction v with
  | nil => simp
  | cons x v ih => simp only [List.map_cons, List.sum_cons, ih, List.length_cons]; push_cast; ring

theorem sum_pow4 (m : ℝ) (v : List ℝ) : (v.map fun x => (x - m) ^ 4).sum =
    (v.map fun x => x ^ 4).sum - 4 * m * (v.map fun x => x ^ 3).sum + 6 * m ^ 2 * (v.map fun x => x ^ 2).sum - 4 * m ^ 3 * (v.map fun x => x ^ 1).sum + v.length * m ^ 4 := by
  induction v with
  | nil => simp
  | cons x v ih => simp only [List.map_cons, List.sum_cons, ih, List.length_cons]; push_cast; ring

theorem mean_raw (v : List ℝ) : v.sum / v.length = raw 1 v := by simp [raw]

theorem central2 (v : List ℝ) (h : v ≠ []) : central 2 v = raw 2 v - raw 1 v ^ 2 := by
  have h0 : (v.length : ℝ) ≠ 0 := by rw [Nat.cast_ne_zero, ne_eq, List.length_eq_zero_iff]; exact h
  unfold central
  rw [mean_raw, sum_pow2]
  unfold raw
  field_simp
  ring

theorem central3 (v : List ℝ) (h : v ≠ []) : central 3 v = raw 3 v - 3 * raw 2 v * raw 1 v + 2 * raw 1 v ^ 3 := by
  have h0 : (v.length : ℝ) ≠ 0 := by rw [Nat.cast_ne_zero, ne_eq, List.length_eq_zero_iff]; exact h
  unfold central
  rw [mean_raw, sum_pow3]
  unfold raw
  field_simp
  ring

theorem central4 (v : List ℝ) (h : v ≠ []) : central 4 v = raw 4 v - 4 * raw 3 v * raw 1 v + 6 * raw 2 v * raw 1 v ^ 2 - 3 * raw 1 v ^ 4 := by
  have h0 : (v.length : ℝ) ≠ 0 := by rw [Nat.cast_ne_zero, ne_eq, List.length_eq_zero_iff]; exact h
  unfold central
  rw [mean_raw, sum_pow4]
  unfold raw
  field_simp
  ring

theorem sampleVar_eq (v : List ℝ) (h : v ≠ []) : sampleVar v = central 2 v * v.length / ((v.length : ℝ) - 1) := by
  have h0 : (v.length : ℝ) ≠ 0 := by rw [Nat.cast_ne_zero, ne_eq, List.length_eq_zero_iff]; exact h
  unfold sampleVar central
  rw [div_mul_cancel₀ _ h0]

/-- Rows that all hold numbers. -/
def nums (v : List ℝ) : List Value := v.map .num

theorem nums_double (v : List ℝ) : (nums v).map Value.double = v := by
  unfold nums
  rw [List.map_map]
  exact List.map_id'' (fun _ => rfl) v

/-- **C103 (sample variance).** Of any two or more numbers, `var` and `var_samp` are the sample variance, the same as `apop_vector_var`, and `stddev` and `stddev_samp` its root. -/
theorem C103_sample (v : List ℝ) (h : 2 ≤ v.length) :
    vectorVar (some v) none = some (sampleVar v) ∧
    (∀ name ∈ ["var", "var_samp"], aggregate name (nums v) = some (.num (sampleVar v))) ∧ ∀ name ∈ ["stddev", "stddev_samp"], aggregate name (nums v) = some (.num (Real.sqrt (sampleVar v))) := by
  have hv : v ≠ [] := by intro e; simp [e] at h
  obtain ⟨h1, h2, h3⟩ := two_eq (nums v)
  rw [nums_double] at h2 h3
  have hl : (nums v).length = v.length := by simp [nums]
  have e : (raw 2 v - raw 1 v ^ 2) * (v.length : ℝ) / ((v.length : ℝ) - 1) = sampleVar v := by rw [sampleVar_eq v hv, central2 v hv]
  refine ⟨C52_var v h, ?_, ?_⟩
  · intro name hn
    simp only [List.mem_cons, List.not_mem_nil, or_false] at hn
    rcases hn with rfl | rfl <;>
      simp [aggregate, varFinalize, finalize, h1, h2, h3, hl, show 1 < v.length by omega, e]
  · intro name hn
    simp only [List.mem_cons, List.not_mem_nil, or_false] at hn
    rcases hn with rfl | rfl <;>
      simp [aggregate, stdDevFinalize, finalize, h1, h2, h3, hl, show 1 < v.length by omega, e]

/-- **C103 (population variance).** `variance` and `var_pop` are the population variance, `std` and `stddev_pop` its root. -/
theorem C103_population (v : List ℝ) (h : 2 ≤ v.length) :
    (∀ name ∈ ["variance", "var_pop"], aggregate name (nums v) = some (.num (central 2 v))) ∧ ∀ name ∈ ["std", "stddev_pop"], aggregate name (nums v) = some (.num (Real.sqrt (central 2 v))) := by
  have hv : v ≠ [] := by intro e; simp [e] at h
  obtain ⟨h1, h2, h3⟩ := two_eq (nums v)
  rw [nums_double] at h2 h3
  have hl : (nums v).length = v.length := by simp [nums]
  refine ⟨?_, ?_⟩
  · intro name hn
    simp only [List.mem_cons, List.not_mem_nil, or_false] at hn
    rcases hn with rfl | rfl <;>
      simp [aggregate, varFinalizePop, finalize, h1, h2, h3, hl, show 1 < v.length by omega, central2 v hv]
  · intro name hn
    simp only [List.mem_cons, List.not_mem_nil, or_false] at hn
    rcases hn with rfl | rfl <;>
      simp [aggregate, stdDevFinalizePop, finalize, h1, h2, h3, hl, show 1 < v.length by omega, central2 v hv]

/-- So `var` and `variance` do not "do the same thing": the one is n/(n - 1) times the other. -/
theorem C103_variance_refuted (v : List ℝ) (h : 2 ≤ v.length) : ∃ a b, aggregate "var" (nums v) = some (.num a) ∧ aggregate "variance" (nums v) = some (.num b) ∧ a = b * v.length / ((v.length : ℝ) - 1) := by
  have hv : v ≠ [] := by intro e; simp [e] at h
  exact ⟨_, _, (C103_sample v h).2.1 "var" (by simp), (C103_population v h).1 "variance" (by simp), sampleVar_eq v hv⟩

/-- **C103 (skew).** Of any three or more numbers, `skew` is the third central moment times n²/((n - 1)(n - 2)), the same as `apop_vector_skew`. -/
theorem C103_skew (v : List ℝ) (h : 3 ≤ v.length) : aggregate "skew" (nums v) = some (.num (central 3 v * v.length ^ 2 / (((v.length : ℝ) - 1) * (v.length - 2)))) ∧
    vectorSkew v = some (central 3 v * v.length ^ 2 / (((v.length : ℝ) - 1) * (v.length - 2))) := by
  have hv : v ≠ [] := by intro e; simp [e] at h
  obtain ⟨h1, h2, h3, h4⟩ := three_eq (nums v)
  rw [nums_double] at h2 h3 h4
  have hl : (nums v).length = v.length := by simp [nums]
  have h3r : (3 : ℝ) ≤ v.length := by exact_mod_cast h
  constructor
  · have e : (raw 3 v * v.length - 3 * raw 2 v * raw 1 v * v.length + 2 * v.length * raw 1 v ^ 3) * v.length / (((v.length : ℝ) - 1) * (v.length - 2)) =
        central 3 v * v.length ^ 2 / (((v.length : ℝ) - 1) * (v.length - 2)) := by
      rw [central3 v hv]
      ring
    simp [aggregate, skewFinalize, finalize, h1, h2, h3, h4, hl, show 1 < v.length by omega, show v.length ≠ 2 by omega, e]
  · unfold vectorSkew
    rw [C53_pop 3 v hv]
    have : (((v.length : ℝ) - 1) * ((v.length : ℝ) - 2)) ≠ 0 := mul_ne_zero (by linarith) (by linarith)
    simp [cdiv, this, central]

/-- **C103 (kurtosis) fails**: what `kurt` and `kurtosis` give is neither the fourth central moment nor what `apop_vector_kurtosis` gives, though documented as the same: the divisor is n³ and not (n - 1)³, and the variance's part is added and not taken away. For the numbers 0 and 1: 11/32, where the moment is 1/16 and `apop_vector_kurtosis` gives -1/4. -/
theorem C103_kurtosis_refuted : (∀ name ∈ ["kurt", "kurtosis"], aggregate name (nums [0, 1]) = some (.num (11 / 32))) ∧ central 4 [0, 1] = 1 / 16 ∧ vectorKurtosis ([0, 1] : List ℝ) = some (-1 / 4) := by
  refine ⟨?_, ?_, ?_⟩
  · obtain ⟨h1, h2, h3, h4, h5⟩ := four_eq (nums [0, 1])
    rw [nums_double] at h2 h3 h4 h5
    have hl : (nums [0, 1]).length = 2 := rfl
    intro name hn
    simp only [List.mem_cons, List.not_mem_nil, or_false] at hn
    rcases hn with rfl | rfl <;>
      (simp [aggregate, kurtFinalize, finalize, h1, h2, h3, h4, h5, hl, kurtOf, raw]; norm_num)
  · norm_num [central]
  · rw [vectorKurtosis, C53_pop 4 _ (by simp), C52_var _ (by simp)]
    norm_num [cdiv]

/-- **C103 (kurtosis).** In general: with m the fourth central moment and s the population variance, (n (n-1)² + 6n - 9) m + n (6n - 9) s², over n (n² - 3n + 3). -/
theorem C103_kurtosis (v : List ℝ) (h : 2 ≤ v.length) : ∀ name ∈ ["kurt", "kurtosis"], aggregate name (nums v) = some (.num
    (((v.length * ((v.length : ℝ) - 1) ^ 2 + (6 * v.length - 9)) * central 4 v + v.length * (6 * v.length - 9) * central 2 v ^ 2) / (v.length * ((v.length : ℝ) ^ 2 - 3 * v.length + 3)))) := by
  have hv : v ≠ [] := by intro e; simp [e] at h
  have h0 : (v.length : ℝ) ≠ 0 := by rw [Nat.cast_ne_zero, ne_eq, List.length_eq_zero_iff]; exact hv
  obtain ⟨h1, h2, h3, h4, h5⟩ := four_eq (nums v)
  rw [nums_double] at h2 h3 h4 h5
  have hl : (nums v).length = v.length := by simp [nums]
  have hpos : ((v.length : ℝ) ^ 2 - 3 * v.length + 3) ≠ 0 := by nlinarith [sq_nonneg ((v.length : ℝ) - 3 / 2)]
  have e : kurtOf v.length (raw 1 v) (raw 2 v) (raw 3 v) (raw 4 v) =
      ((v.length * ((v.length : ℝ) - 1) ^ 2 + (6 * v.length - 9)) * central 4 v + v.length * (6 * v.length - 9) * central 2 v ^ 2) / (v.length * ((v.length : ℝ) ^ 2 - 3 * v.length + 3)) := by
    rw [central4 v hv, central2 v hv]
    unfold kurtOf
    simp only
    field_simp
  intro name hn
  simp only [List.mem_cons, List.not_mem_nil, or_false] at hn
  rcases hn with rfl | rfl <;>
    simp [aggregate, kurtFinalize, finalize, h1, h2, h3, h4, h5, hl, show 1 < v.length by omega, e]

/-- **C103 (few rows).** One row gives zero, and none NULL, whatever the function. -/
theorem C103_few (name : String) (r : Result) (h : aggregate name [] = some r) : r = .null := by
  unfold aggregate at h
  repeat' split at h
  all_goals first
    | (simp only [Option.some.injEq] at h; subst h; simp [stdDevFinalize, stdDevFinalizePop, varFinalize, varFinalizePop, skewFinalize, kurtFinalize, finalize, Ctx.zero])
    | cases h

theorem C103_one (name : String) (x : Value) (r : Result) (h : aggregate name [x] = some r) : r = .num 0 := by
  unfold aggregate at h
  repeat' split at h
  all_goals first
    | (simp only [Option.some.injEq] at h; subst h; simp [stdDevFinalize, stdDevFinalizePop, varFinalize, varFinalizePop, skewFinalize, kurtFinalize, finalize, Ctx.zero, twoStep, threeStep, fourStep])
    | cases h

/-- **C103 (NULLs) fails**: SQL's own aggregates, `count(x)` and `avg(x)`, leave NULLs out. For these, each NULL is a zero, for any function and any rows. -/
theorem C103_null_refuted (name : String) (l : List Value) : aggregate name l = aggregate name (nums (l.map Value.double)) := by
  have hd : ∀ v : Value, Value.double (.num v.double) = v.double := fun _ => rfl
  have h2 : ∀ (l : List Value) (p : Ctx), l.foldl twoStep p = (nums (l.map Value.double)).foldl twoStep p := by
    intro l
    induction l with
    | nil => intro p; rfl
    | cons a l ih => intro p; exact ih _
  have h3 : ∀ (l : List Value) (p : Ctx), l.foldl threeStep p = (nums (l.map Value.double)).foldl threeStep p := by
    intro l
    induction l with
    | nil => intro p; rfl
    | cons a l ih => intro p; exact ih _
  have h4 : ∀ (l : List Value) (p : Ctx), l.foldl fourStep p = (nums (l.map Value.double)).foldl fourStep p := by
    intro l
    induction l with
    | nil => intro p; rfl
    | cons a l ih => intro p; exact ih _
  unfold aggregate
  simp only [← h2, ← h3, ← h4]

/-- So the variance of a column that holds 3, 3 and a NULL is 3, and not 0. -/
theorem C103_null_example_refuted : aggregate "var" [.num 3, .null, .num 3] = some (.num 3) ∧ aggregate "var" [.num 3, .num 3] = some (.num 0) := by
  constructor
  · rw [C103_null_refuted]
    have := (C103_sample [3, 0, 3] (by simp)).2.1 "var" (by simp)
    simp only [List.map_cons, List.map_nil, Value.double]
    rw [this]
    norm_num [sampleVar]
  · have := (C103_sample [3, 3] (by simp)).2.1 "var" (by simp)
    show aggregate "var" (nums [3, 3]) = _
    rw [this]
    norm_num [sampleVar]

end Apop.Sql
