import Mathlib.Data.Real.Basic
import Mathlib.Data.Nat.Choose.Basic
import Mathlib.Data.List.Infix
import Mathlib.Data.List.Nodup
import Mathlib.Algebra.Order.Floor.Ring
import Mathlib.Algebra.Order.Archimedean.Real.Basic
import Mathlib.Tactic.Linarith
import Mathlib.Tactic.FieldSimp
import Mathlib.Tactic.Ring
import Mathlib.Tactic.Positivity

/-! # C94: the distribution of the two-sample Kolmogorov–Smirnov statistic -/

namespace Apop.Smirnov

/-! ## The model (exact arithmetic; both sizes positive) -/

/-- `q`, apop_hist.m4.c:191. -/
noncomputable def qOf (x : ℝ) (m n : ℕ) : ℝ := (1 / 2 + ⌊x * m * n - 1 / 10 ^ 7⌋) / (m * n)

/-- The array at first, lines 194-195. -/
noncomputable def first (q : ℝ) (n : ℕ) : List ℝ := (List.range (n + 1)).map fun j => by classical exact if (j : ℝ) / n > q then 0 else 1

/-- The inner loop, lines 201-204: the rest of the array from `j` on, `prev` being the element before as it is now. -/
noncomputable def inner (q : ℝ) (m n i : ℕ) (w : ℝ) : ℝ → ℕ → List ℝ → List ℝ
  | _, _, [] => []
  | prev, j, u :: us =>
    let new : ℝ := by classical exact if |(i : ℝ) / m - j / n| > q then 0 else w * u + prev
    new :: inner q m n i w new (j + 1) us

/-- One turn of the outer loop, lines 196-204. -/
noncomputable def outer (q : ℝ) (m n i : ℕ) : List ℝ → List ℝ
  | [] => []
  | u0 :: us =>
    let new : ℝ := by classical exact if (i : ℝ) / m > q then 0 else (i : ℝ) / (i + n) * u0
    new :: inner q m n i ((i : ℝ) / (i + n)) new 1 us

/-- The outer loop, for `i` up to the number given. -/
noncomputable def rows (q : ℝ) (m n : ℕ) : ℕ → List ℝ
  | 0 => first q n
  | i + 1 => outer q m n (i + 1) (rows q m n i)

/-- After the swap, lines 189-206. -/
noncomputable def psmirnovLe (x : ℝ) (m n : ℕ) : ℝ := (rows (qOf x m n) m n m).getD n 0

/-- `psmirnov2x`, apop_hist.m4.c:183-206. -/
noncomputable def psmirnov2x (x : ℝ) (m n : ℕ) : ℝ := if m > n then psmirnovLe x n m else psmirnovLe x m n

/-! ## Specification -/

/-- The orders in which `i` elements of a first sample (`true`) and `j` of a second (`false`) can come. -/
def orders : ℕ → ℕ → List (List Bool)
  | 0, 0 => [[]]
  | i + 1, 0 => (orders i 0).map (· ++ [true])
  | 0, j + 1 => (orders 0 j).map (· ++ [false])
  | i + 1, j + 1 => (orders i (j + 1)).map (· ++ [true]) ++ (orders (i + 1) j).map (· ++ [false])
termination_by i j => i + j

/-- How far apart the two samples' distribution functions are, at most, if the elements come in this order: over all places in the order, the difference of the portions of the two samples up to there. -/
noncomputable def D (m n : ℕ) (s : List Bool) : ℝ := (s.inits.map fun p => |(p.count true : ℝ) / m - p.count false / n|).foldr max 0

/-- The portion of the orders for which a claim holds. -/
noncomputable def portion (m n : ℕ) (P : List Bool → Prop) : ℝ := by classical exact ((orders m n).filter fun s => decide (P s)).length / ((orders m n).length : ℝ)

/-! ## The orders are all the orders -/

theorem mem_orders : ∀ (i j : ℕ) (s : List Bool), s ∈ orders i j ↔ s.count true = i ∧ s.count false = j := by
  intro i j
  induction hk : i + j generalizing i j with
  | zero =>
    obtain ⟨rfl, rfl⟩ : i = 0 ∧ j = 0 := by omega
    intro s
    rw [orders]
    constructor
    · intro h; simp at h; simp [h]
    · rintro ⟨h1, h2⟩
      have : s = [] := by
        cases s with
        | nil => rfl
        | cons b s => cases b <;> simp at h1 h2
      simp [this]
  | succ k ih =>
    intro s
    have last : ∀ s : List Bool, s ≠ [] → ∃ t b, s = t ++ [b] := fun s h => ⟨s.dropLast, s.getLast h, (List.dropLast_append_getLast h).symm⟩
    have app : ∀ (t : List Bool) (b : Bool) (l : List (List Bool)) (c : Bool), t ++ [b] ∈ l.map (· ++ [c]) ↔ b = c ∧ t ∈ l := by
      intro t b l c
      simp only [List.mem_map]
      constructor
      · rintro ⟨a, ha, he⟩
        obtain ⟨e1, e2⟩ := List.append_inj' he rfl
        simp at e2
        exact ⟨e2.symm, e1 ▸ ha⟩
      · rintro ⟨rfl, h⟩; exact ⟨t, h, rfl⟩
    rcases List.eq_nil_or_concat' s with rfl | ⟨t, b, rfl⟩
    · constructor
      · intro h
        exfalso
        match i, j with
        | 0, 0 => omega
        | i + 1, 0 => rw [orders] at h; simp at h
        | 0, j + 1 => rw [orders] at h; simp at h
        | i + 1, j + 1 => rw [orders] at h; simp at h
      · intro h; simp at h; omega
    · match i, j with
      | 0, 0 => omega
      | i + 1, 0 =>
        rw [orders, app, ih i 0 (by omega)]
        cases b <;> simp [List.count_append]
      | 0, j + 1 =>
        rw [orders, app, ih 0 j (by omega)]
        cases b <;> simp [List.count_append]
      | i + 1, j + 1 =>
        rw [orders, List.mem_append, app, app, ih i (j + 1) (by omega), ih (i + 1) j (by omega)]
        cases b <;> simp [List.count_append]

theorem nodup_orders : ∀ (i j : ℕ), (orders i j).Nodup := by
  have inj : ∀ b : Bool, Function.Injective fun s : List Bool => s ++ [b] := fun b a c h => List.append_cancel_right h
  intro i j
  induction hk : i + j generalizing i j with
  | zero =>
    obtain ⟨rfl, rfl⟩ : i = 0 ∧ j = 0 := by omega
    rw [orders]; simp
  | succ k ih =>
    match i, j with
    | 0, 0 => omega
    | i + 1, 0 => rw [orders]; exact (ih i 0 (by omega)).map (inj _)
    | 0, j + 1 => rw [orders]; exact (ih 0 j (by omega)).map (inj _)
    | i + 1, j + 1 =>
      rw [orders, List.nodup_append]
      refine ⟨(ih i (j + 1) (by omega)).map (inj _), (ih (i + 1) j (by omega)).map (inj _), ?_⟩
      simp only [List.mem_map]
      rintro _ ⟨a, _, rfl⟩ _ ⟨c, _, rfl⟩ h
      have := (List.append_inj' h rfl).2
      simp at this

theorem length_orders : ∀ (i j : ℕ), (orders i j).length = (i + j).choose i := by
  intro i j
  induction hk : i + j generalizing i j with
  | zero =>
    obtain ⟨rfl, rfl⟩ : i = 0 ∧ j = 0 := by omega
    rw [orders]; simp
  | succ k ih =>
    match i, j with
    | 0, 0 => omega
    | i + 1, 0 => rw [orders, List.length_map, ih i 0 (by omega), show i = k by omega]; simp
    | 0, j + 1 => rw [orders, List.length_map, ih 0 j (by omega)]; simp
    | i + 1, j + 1 =>
      rw [orders, List.length_append, List.length_map, List.length_map, ih i (j + 1) (by omega), ih (i + 1) j (by omega), Nat.choose_succ_succ]

/-! ## Orders within a band -/

/-- Every place of the order is within the band. -/
def Within (ok : ℕ → ℕ → Prop) (s : List Bool) : Prop := ∀ p ∈ s.inits, ok (p.count true) (p.count false)

open Classical in
/-- The number of orders within the band. -/
noncomputable def N (ok : ℕ → ℕ → Prop) (i j : ℕ) : ℕ := ((orders i j).filter fun s => decide (Within ok s)).length

theorem within_append (ok : ℕ → ℕ → Prop) (s : List Bool) (b : Bool) : Within ok (s ++ [b]) ↔ Within ok s ∧ ok ((s ++ [b]).count true) ((s ++ [b]).count false) := by
  unfold Within
  constructor
  · intro h
    refine ⟨fun p hp => h p ?_, h _ ?_⟩
    · rw [List.mem_inits] at hp ⊢
      exact hp.trans (List.prefix_append _ _)
    · rw [List.mem_inits]
  · rintro ⟨h1, h2⟩ p hp
    rw [List.mem_inits, List.prefix_concat_iff] at hp
    rcases hp with h | h
    · rw [h]; exact h2
    · exact h1 p ((List.mem_inits _ _).2 h)

open Classical in
theorem filter_map_append (ok : ℕ → ℕ → Prop) (i j : ℕ) (l : List (List Bool)) (b : Bool) (hl : ∀ s ∈ l, (s ++ [b]).count true = i ∧ (s ++ [b]).count false = j) :
    ((l.map (· ++ [b])).filter fun s => decide (Within ok s)).length = if ok i j then (l.filter fun s => decide (Within ok s)).length else 0 := by
  rw [List.filter_map, List.length_map]
  split
  · rename_i h
    congr 1
    refine List.filter_congr fun s hs => ?_
    obtain ⟨e1, e2⟩ := hl s hs
    simp only [Function.comp, decide_eq_decide]
    rw [within_append, e1, e2]
    exact ⟨fun a => a.1, fun a => ⟨a, h⟩⟩
  · rename_i h
    rw [List.length_eq_zero_iff, List.filter_eq_nil_iff]
    intro s hs
    obtain ⟨e1, e2⟩ := hl s hs
    simp only [Function.comp, decide_eq_true_eq]
    rw [within_append, e1, e2]
    exact fun a => h a.2

open Classical in
theorem N_zero (ok : ℕ → ℕ → Prop) : N ok 0 0 = if ok 0 0 then 1 else 0 := by
  unfold N
  rw [orders]
  by_cases h : ok 0 0
  · simp [h, Within]
  · simp [h, Within]

open Classical in
theorem N_row (ok : ℕ → ℕ → Prop) (i : ℕ) : N ok (i + 1) 0 = if ok (i + 1) 0 then N ok i 0 else 0 := by
  unfold N
  rw [orders]
  refine filter_map_append ok (i + 1) 0 (orders i 0) true fun s hs => ?_
  have := (mem_orders i 0 s).1 hs
  simp [List.count_append, this]

open Classical in
theorem N_col (ok : ℕ → ℕ → Prop) (j : ℕ) : N ok 0 (j + 1) = if ok 0 (j + 1) then N ok 0 j else 0 := by
  unfold N
  rw [orders]
  refine filter_map_append ok 0 (j + 1) (orders 0 j) false fun s hs => ?_
  have := (mem_orders 0 j s).1 hs
  simp [List.count_append, this]

open Classical in
theorem N_step (ok : ℕ → ℕ → Prop) (i j : ℕ) : N ok (i + 1) (j + 1) = if ok (i + 1) (j + 1) then N ok i (j + 1) + N ok (i + 1) j else 0 := by
  unfold N
  rw [orders, List.filter_append, List.length_append]
  rw [filter_map_append ok (i + 1) (j + 1) (orders i (j + 1)) true fun s hs => ?_, filter_map_append ok (i + 1) (j + 1) (orders (i + 1) j) false fun s hs => ?_]
  · split <;> simp
  · have := (mem_orders (i + 1) j s).1 hs
    simp [List.count_append, this]
  · have := (mem_orders i (j + 1) s).1 hs
    simp [List.count_append, this]

theorem N_swap (ok : ℕ → ℕ → Prop) : ∀ (i j : ℕ), N ok i j = N (fun a b => ok b a) j i := by
  intro i j
  induction hk : i + j generalizing i j with
  | zero =>
    obtain ⟨rfl, rfl⟩ : i = 0 ∧ j = 0 := by omega
    rw [N_zero, N_zero]
  | succ k ih =>
    match i, j with
    | 0, 0 => omega
    | i + 1, 0 => rw [N_row, N_col, ih i 0 (by omega)]
    | 0, j + 1 => rw [N_row, N_col, ih 0 j (by omega)]
    | i + 1, j + 1 => rw [N_step, N_step, ih i (j + 1) (by omega), ih (i + 1) j (by omega), Nat.add_comm (N _ (j + 1) i)]

/-! ## The loops count -/

/-- The band of the program. -/
def ok (q : ℝ) (m n : ℕ) (i j : ℕ) : Prop := ¬ |(i : ℝ) / m - j / n| > q

/-- The factor reached after `i` turns. -/
noncomputable def factor (n : ℕ) : ℕ → ℝ
  | 0 => 1
  | i + 1 => ((i + 1 : ℕ) : ℝ) / ((i + 1 : ℕ) + n) * factor n i

theorem factor_eq (n i : ℕ) : factor n i * ((i + n).choose i : ℝ) = 1 := by
  induction i with
  | zero => simp [factor]
  | succ i ih =>
    have h : ((i + 1 : ℕ) : ℝ) * ((i + 1 + n).choose (i + 1) : ℝ) = ((i + 1 : ℕ) + n) * ((i + n).choose i : ℝ) := by
      have := Nat.add_one_mul_choose_eq (i + n) i
      rw [show i + 1 + n = i + n + 1 by omega]
      have h2 : ((i + n + 1 : ℕ) : ℝ) * ((i + n).choose i : ℝ) = ((i + n + 1).choose (i + 1) : ℝ) * ((i + 1 : ℕ) : ℝ) := by exact_mod_cast this
      push_cast at h2 ⊢
      linarith
    rw [factor]
    have hp : ((i + 1 : ℕ) : ℝ) + n ≠ 0 := by positivity
    calc ((i + 1 : ℕ) : ℝ) / ((i + 1 : ℕ) + n) * factor n i * ((i + 1 + n).choose (i + 1) : ℝ)
        = factor n i * (((i + 1 : ℕ) : ℝ) * ((i + 1 + n).choose (i + 1) : ℝ)) / ((i + 1 : ℕ) + n) := by ring
      _ = factor n i * ((i + n).choose i : ℝ) := by rw [h]; field_simp
      _ = 1 := ih

theorem first_eq (q : ℝ) (m n : ℕ) : first q n = (List.range (n + 1)).map fun j => factor n 0 * (N (ok q m n) 0 j : ℝ) := by
  unfold first
  refine List.map_congr_left fun j _ => ?_
  have key : ∀ j : ℕ, N (ok q m n) 0 j = by classical exact if (j : ℝ) / n > q then 0 else 1 := by
    intro j
    induction j with
    | zero =>
      rw [N_zero]
      simp only [ok, Nat.cast_zero, zero_div, sub_zero, abs_zero]
      by_cases h : (0 : ℝ) > q <;> simp [h]
    | succ j ih =>
      rw [N_col, ih]
      have e : |((0 : ℕ) : ℝ) / m - ((j + 1 : ℕ) : ℝ) / n| = ((j + 1 : ℕ) : ℝ) / n := by
        rw [Nat.cast_zero, zero_div, zero_sub, abs_neg, abs_of_nonneg (by positivity)]
      simp only [ok, e]
      by_cases h : ((j + 1 : ℕ) : ℝ) / n > q
      · rw [if_neg (not_not.2 h), if_pos h]
      · have h2 : ¬ (j : ℝ) / n > q := by
          have : (j : ℝ) / n ≤ ((j + 1 : ℕ) : ℝ) / n := by
            gcongr
            simp
          intro h3
          exact h (h3.trans_le this)
        rw [if_pos h, if_neg h2, if_neg h]
  rw [key, factor]
  by_cases h : (j : ℝ) / n > q <;> simp [h]

theorem inner_eq (q : ℝ) (m n i : ℕ) (c : ℝ) : ∀ (len j : ℕ),
    inner q m n (i + 1) (((i + 1 : ℕ) : ℝ) / ((i + 1 : ℕ) + n)) (((i + 1 : ℕ) : ℝ) / ((i + 1 : ℕ) + n) * c * (N (ok q m n) (i + 1) j : ℝ)) (j + 1) ((List.range len).map fun t => c * (N (ok q m n) i (j + 1 + t) : ℝ)) =
      (List.range len).map fun t => ((i + 1 : ℕ) : ℝ) / ((i + 1 : ℕ) + n) * c * (N (ok q m n) (i + 1) (j + 1 + t) : ℝ) := by
  intro len
  induction len with
  | zero => intro j; simp [inner]
  | succ len ih =>
    intro j
    rw [List.range_succ_eq_map, List.map_cons, List.map_cons, List.map_map, List.map_map, inner]
    have e : (by classical exact if |((i + 1 : ℕ) : ℝ) / m - ((j + 1 : ℕ) : ℝ) / n| > q then 0 else ((i + 1 : ℕ) : ℝ) / ((i + 1 : ℕ) + n) * (c * (N (ok q m n) i (j + 1 + 0) : ℝ)) + ((i + 1 : ℕ) : ℝ) / ((i + 1 : ℕ) + n) * c * (N (ok q m n) (i + 1) j : ℝ)) =
        ((i + 1 : ℕ) : ℝ) / ((i + 1 : ℕ) + n) * c * (N (ok q m n) (i + 1) (j + 1) : ℝ) := by
      rw [N_step]
      by_cases h : |((i + 1 : ℕ) : ℝ) / m - ((j + 1 : ℕ) : ℝ) / n| > q
      · rw [if_pos h, if_neg (show ¬ ok q m n (i + 1) (j + 1) from not_not.2 h)]; simp
      · rw [if_neg h, if_pos (show ok q m n (i + 1) (j + 1) from h)]; push_cast; simp only [Nat.add_zero]; ring
    simp only [e, Nat.add_zero]
    congr 1
    have i2 := ih (j + 1)
    have e1 : ((fun t => c * (N (ok q m n) i (j + 1 + t) : ℝ)) ∘ Nat.succ) = fun t => c * (N (ok q m n) i (j + 1 + 1 + t) : ℝ) := by
      funext t; simp only [Function.comp]; rw [show j + 1 + t.succ = j + 1 + 1 + t by omega]
    have e2 : ((fun t => ((i + 1 : ℕ) : ℝ) / ((i + 1 : ℕ) + n) * c * (N (ok q m n) (i + 1) (j + 1 + t) : ℝ)) ∘ Nat.succ) = fun t => ((i + 1 : ℕ) : ℝ) / ((i + 1 : ℕ) + n) * c * (N (ok q m n) (i + 1) (j + 1 + 1 + t) : ℝ) := by
      funext t; simp only [Function.comp]; rw [show j + 1 + t.succ = j + 1 + 1 + t by omega]
    rw [e1, e2]
    exact i2

theorem rows_eq (q : ℝ) (m n : ℕ) : ∀ i, rows q m n i = (List.range (n + 1)).map fun j => factor n i * (N (ok q m n) i j : ℝ) := by
  intro i
  induction i with
  | zero => rw [rows]; exact first_eq q m n
  | succ i ih =>
    rw [rows, ih, List.range_succ_eq_map, List.map_cons, List.map_cons, List.map_map, List.map_map, outer]
    have e : (by classical exact if ((i + 1 : ℕ) : ℝ) / m > q then 0 else ((i + 1 : ℕ) : ℝ) / ((i + 1 : ℕ) + n) * (factor n i * (N (ok q m n) i 0 : ℝ))) =
        ((i + 1 : ℕ) : ℝ) / ((i + 1 : ℕ) + n) * factor n i * (N (ok q m n) (i + 1) 0 : ℝ) := by
      rw [N_row]
      have e : |((i + 1 : ℕ) : ℝ) / m - ((0 : ℕ) : ℝ) / n| = ((i + 1 : ℕ) : ℝ) / m := by
        rw [Nat.cast_zero, zero_div, sub_zero, abs_of_nonneg (by positivity)]
      simp only [ok, e, not_not, ite_not]
      split
      · simp
      · ring
    simp only [e]
    congr 1
    have := inner_eq q m n i (factor n i) n 0
    have e1 : ((fun j => factor n i * (N (ok q m n) i j : ℝ)) ∘ Nat.succ) = fun t => factor n i * (N (ok q m n) i (0 + 1 + t) : ℝ) := by
      funext t; simp only [Function.comp]; rw [show t.succ = 0 + 1 + t by omega]
    have e2 : ((fun j => factor n (i + 1) * (N (ok q m n) (i + 1) j : ℝ)) ∘ Nat.succ) = fun t => ((i + 1 : ℕ) : ℝ) / ((i + 1 : ℕ) + n) * factor n i * (N (ok q m n) (i + 1) (0 + 1 + t) : ℝ) := by
      funext t; simp only [Function.comp]; rw [show t.succ = 0 + 1 + t by omega, factor]
    rw [e1, e2]
    exact this

/-! ## The statement -/

theorem D_le (m n : ℕ) (s : List Bool) (y : ℝ) (hy : 0 ≤ y) : D m n s ≤ y ↔ ∀ p ∈ s.inits, |(p.count true : ℝ) / m - p.count false / n| ≤ y := by
  unfold D
  generalize s.inits = l
  induction l with
  | nil => simp [hy]
  | cons a l ih => simp only [List.map_cons, List.foldr_cons, max_le_iff, ih, List.mem_cons, forall_eq_or_imp]

theorem D_nonneg (m n : ℕ) (s : List Bool) : 0 ≤ D m n s := by
  unfold D
  generalize s.inits = l
  induction l with
  | nil => simp
  | cons a l ih => simp only [List.map_cons, List.foldr_cons]; exact ih.trans (le_max_right _ _)

theorem portion_eq (m n : ℕ) (okf : ℕ → ℕ → Prop) : portion m n (Within okf) = (N okf m n : ℝ) / ((m + n).choose m : ℝ) := by
  unfold portion N
  rw [length_orders]

theorem portion_congr (m n : ℕ) (P Q : List Bool → Prop) (h : ∀ s ∈ orders m n, P s ↔ Q s) : portion m n P = portion m n Q := by
  unfold portion
  congr 3
  refine List.filter_congr fun s hs => ?_
  simp [h s hs]

/-- The band, in terms of `x`. -/
theorem ok_iff (x : ℝ) (m n : ℕ) (hm : 0 < m) (hn : 0 < n) (i j : ℕ) : ok (qOf x m n) m n i j ↔ |(i : ℝ) / m - j / n| ≤ x - 1 / 10 ^ 7 / (m * n) := by
  have hm' : (0 : ℝ) < m := by exact_mod_cast hm
  have hn' : (0 : ℝ) < n := by exact_mod_cast hn
  have hmn : (0 : ℝ) < m * n := by positivity
  obtain ⟨z, hz⟩ : ∃ z : ℤ, |(i : ℝ) / m - j / n| = z / (m * n) := by
    refine ⟨|(i : ℤ) * n - j * m|, ?_⟩
    have : (i : ℝ) / m - j / n = ((i * n - j * m : ℤ) : ℝ) / (m * n) := by push_cast; field_simp
    rw [this, abs_div, abs_of_pos hmn, Int.cast_abs]
  unfold ok qOf
  rw [hz, not_lt, div_le_div_iff_of_pos_right hmn]
  have e : x - 1 / 10 ^ 7 / (m * n) = (x * m * n - 1 / 10 ^ 7) / (m * n) := by field_simp
  rw [e, div_le_div_iff_of_pos_right hmn]
  constructor
  · intro h
    have : z ≤ ⌊x * m * n - 1 / 10 ^ 7⌋ := by
      by_contra hc
      have : (⌊x * m * n - 1 / 10 ^ 7⌋ : ℝ) + 1 ≤ z := by exact_mod_cast (not_le.1 hc)
      linarith
    exact Int.le_floor.1 this
  · intro h
    have : (z : ℝ) ≤ ⌊x * m * n - 1 / 10 ^ 7⌋ := by exact_mod_cast Int.le_floor.2 h
    linarith

theorem le_eq (x : ℝ) (m n : ℕ) : psmirnovLe x m n = (N (ok (qOf x m n) m n) m n : ℝ) / ((m + n).choose m : ℝ) := by
  unfold psmirnovLe
  rw [rows_eq]
  have hf := factor_eq n m
  have hc : ((m + n).choose m : ℝ) ≠ 0 := by
    intro h; rw [h, mul_zero] at hf; exact zero_ne_one hf
  have : factor n m = 1 / ((m + n).choose m : ℝ) := by field_simp; exact hf
  simp [List.getD_eq_getElem?_getD, this]
  ring

theorem within_iff (x : ℝ) (m n : ℕ) (hm : 0 < m) (hn : 0 < n) (s : List Bool) : Within (ok (qOf x m n) m n) s ↔ D m n s ≤ x - 1 / 10 ^ 7 / (m * n) := by
  rcases le_or_gt 0 (x - 1 / 10 ^ 7 / (m * n)) with h | h
  · rw [D_le m n s _ h]
    unfold Within
    exact forall₂_congr fun p _ => ok_iff x m n hm hn _ _
  · constructor
    · intro hw
      have h0 := (ok_iff x m n hm hn _ _).1 (hw [] (by simp))
      simp only [List.count_nil, Nat.cast_zero, zero_div, sub_zero, abs_zero] at h0
      exact absurd h0 (not_le.2 h)
    · intro hd
      exact absurd ((D_nonneg m n s).trans hd) (not_le.2 h)

/-- **C94.** For any sizes of the samples and any x, the result is the portion, of all orders in which the two samples' elements can come, of those whose statistic is at most x less 10⁻⁷/(mn). -/
theorem C94_distribution (x : ℝ) (m n : ℕ) (hm : 0 < m) (hn : 0 < n) : psmirnov2x x m n = portion m n fun s => D m n s ≤ x - 1 / 10 ^ 7 / (m * n) := by
  rw [← portion_congr m n _ _ (fun s _ => within_iff x m n hm hn s), portion_eq]
  unfold psmirnov2x
  split
  · rw [le_eq, N_swap]
    have hq : qOf x n m = qOf x m n := by unfold qOf; rw [mul_right_comm, mul_comm (n : ℝ) m]
    have he : (fun a b => ok (qOf x n m) n m b a) = ok (qOf x m n) m n := by
      funext a b
      unfold ok
      rw [hq, abs_sub_comm]
    rw [he, add_comm n m, ← Nat.choose_symm_add]
  · exact le_eq x m n

/-- **C94 (p-value).** At a value the statistic can take, a multiple of 1/(mn), the result is the portion of the orders with a *smaller* statistic, so that what is given as the p value, one less it, is the portion with a statistic as large or larger. -/
theorem C94_pvalue (m n : ℕ) (hm : 0 < m) (hn : 0 < n) (k : ℕ) :
    psmirnov2x (k / (m * n)) m n = portion m n (fun s => D m n s < k / (m * n)) ∧ 1 - psmirnov2x (k / (m * n)) m n = portion m n fun s => k / (m * n) ≤ D m n s := by
  have hm' : (0 : ℝ) < m := by exact_mod_cast hm
  have hn' : (0 : ℝ) < n := by exact_mod_cast hn
  have hmn : (0 : ℝ) < m * n := by positivity
  have val : ∀ s : List Bool, ∃ z : ℕ, D m n s = z / (m * n) := by
    intro s
    unfold D
    generalize s.inits = l
    induction l with
    | nil => exact ⟨0, by simp⟩
    | cons a l ih =>
      obtain ⟨z, hz⟩ := ih
      simp only [List.map_cons, List.foldr_cons, hz]
      have : |(a.count true : ℝ) / m - a.count false / n| = (((a.count true : ℤ) * n - a.count false * m).natAbs : ℕ) / (m * n) := by
        have : (a.count true : ℝ) / m - a.count false / n = ((a.count true * n - a.count false * m : ℤ) : ℝ) / (m * n) := by push_cast; field_simp
        rw [this, abs_div, abs_of_pos hmn, Nat.cast_natAbs, Int.cast_abs]
      rw [this]
      rcases max_choice (((((a.count true : ℤ) * n - a.count false * m).natAbs : ℕ) : ℝ) / (m * n)) ((z : ℝ) / (m * n)) with h | h
      · exact ⟨_, h⟩
      · exact ⟨z, h⟩
  have h1 : psmirnov2x (k / (m * n)) m n = portion m n (fun s => D m n s < k / (m * n)) := by
    rw [C94_distribution _ m n hm hn]
    refine portion_congr m n _ _ fun s _ => ?_
    obtain ⟨z, hz⟩ := val s
    rw [hz, ← sub_div, div_le_div_iff_of_pos_right hmn, div_lt_div_iff_of_pos_right hmn]
    constructor
    · intro h
      have : (0 : ℝ) < 1 / 10 ^ 7 := by norm_num
      linarith
    · intro h
      have : z + 1 ≤ k := by exact_mod_cast h
      have : (z : ℝ) + 1 ≤ k := by exact_mod_cast this
      have : (1 : ℝ) / 10 ^ 7 ≤ 1 := by norm_num
      linarith
  refine ⟨h1, ?_⟩
  rw [h1]
  unfold portion
  have hpos : ((orders m n).length : ℝ) ≠ 0 := by
    rw [length_orders]
    have := Nat.choose_pos (show m ≤ m + n by omega)
    exact_mod_cast this.ne'
  rw [eq_div_iff hpos, sub_mul, div_mul_cancel₀ _ hpos, one_mul]
  have : ∀ (l : List (List Bool)) (P Q : List Bool → Prop) [DecidablePred P] [DecidablePred Q], (∀ s, Q s ↔ ¬ P s) → ((l.filter fun s => decide (P s)).length : ℝ) + (l.filter fun s => decide (Q s)).length = l.length := by
    intro l P Q _ _ hPQ
    induction l with
    | nil => simp
    | cons a l ih =>
      simp only [List.filter_cons]
      by_cases h : P a
      · have : ¬ Q a := fun hq => (hPQ a).1 hq h
        simp only [h, this, decide_true, decide_false, if_true, List.length_cons, Bool.false_eq_true, if_false]
        push_cast
        linarith
      · have : Q a := (hPQ a).2 h
        simp only [h, this, decide_true, decide_false, if_true, List.length_cons, Bool.false_eq_true, if_false]
        push_cast
        linarith
  classical
  have := this (orders m n) (fun s => D m n s < k / (m * n)) (fun s => k / (m * n) ≤ D m n s) (fun s => (not_lt).symm)
  linarith

/-- The orders are those with the right numbers of elements, each once, and as many as there are ways to choose places for the first sample. -/
theorem C94_orders (m n : ℕ) : (∀ s, s ∈ orders m n ↔ s.count true = m ∧ s.count false = n) ∧ (orders m n).Nodup ∧ (orders m n).length = (m + n).choose m := ⟨mem_orders m n, nodup_orders m n, length_orders m n⟩

/-- **C94 (symmetry).** The order of the samples does not matter. -/
theorem C94_symm (x : ℝ) (m n : ℕ) : psmirnov2x x m n = psmirnov2x x n m := by
  unfold psmirnov2x
  rcases lt_trichotomy m n with h | rfl | h
  · rw [if_neg (by omega), if_pos h]
  · rfl
  · rw [if_pos h, if_neg (by omega)]

/-- A case: of the six orders of two and two, two have the statistic 1, the others 1/2 or less... so the result at 1 is 2/3. -/
example : psmirnov2x 1 2 2 = 2 / 3 := by
  have hq : qOf 1 2 2 = 7 / 8 := by
    have : ⌊(1 : ℝ) * (2 : ℕ) * (2 : ℕ) - 1 / 10 ^ 7⌋ = 3 := by
      rw [Int.floor_eq_iff]; norm_num
    unfold qOf
    rw [this]; norm_num
  simp only [psmirnov2x, psmirnovLe, rows, first, outer, inner, hq, List.range_succ, List.range_zero]
  norm_num [outer, inner, abs_of_pos, abs_of_neg]

end Apop.Smirnov
