import Verif.Pack.Props

/-!
# C198: `apop_parameter_model` by repeated estimation (apop_model.m4.c:379-394)

For a model without a parameter model of its own, and without data: the model is estimated
`draws` times, each time with other random numbers; the parameters of every run are packed into a
row of a matrix, which becomes the data of a PMF (each row with the same weight).
-/

namespace Apop.ParamModel

open Apop.Pack
variable {α : Type}

/-- The number of columns of the matrix of draws, apop_model.m4.c:379-380: `vsize+msize1+msize2`
of the (first page of the) model's parameters. -/
def width (p : Page α) : Nat :=
  (p.vector.map List.length).getD 0 + (p.matrix.map (·.size1)).getD 0 + (p.matrix.map (·.cols)).getD 0

/-- Line 383: one run's parameters packed into a row holding `junk`; the return value is ignored. -/
def row (junk : α) (w : Nat) (run : List (Page α)) : Res (List α) := do
  let r ← packInto 'y' 'n' run (List.replicate w junk)
  .ok r.1

/-- The loop of lines 381-385. `runs` are the parameters found by the successive estimations. -/
def rows (junk : α) (w : Nat) : List (List (Page α)) → Res (List (List α))
  | [] => .ok []
  | r :: rs => do
    let x ← row junk w r
    let xs ← rows junk w rs
    .ok (x :: xs)

/-- Lines 389-391: column `k` of the draws. Outside the matrix GSL stops the program. -/
def column (k : Nat) : List (List α) → Res (List α)
  | [] => .ok []
  | r :: rs => do
    let x ← rd r k
    let xs ← column k rs
    .ok (x :: xs)

/-- The data of the PMF, apop_model.m4.c:379-394: `index = none` is -1 (all parameters). -/
inductive Draws (α : Type) where
  | all (rows : List (List α))
  | one (vals : List α)
  deriving DecidableEq, Repr

/-- apop_model.m4.c:379-394, for a model whose parameters are `ps` and whose successive
estimations give `runs`. -/
def parameterModel (junk : α) (index : Option Nat) (p : Page α) (runs : List (List (Page α))) : Res (Draws α) := do
  let m ← rows junk (width p) runs
  match index with
  | none => .ok (.all m)
  | some k => do
    let c ← column k m
    .ok (.one c)

/-! ### Specification -/

/-- The parameters of one run as a list of numbers: every page not titled in angle brackets, each
its vector, then its matrix by rows, then its weights. -/
def numbers (run : List (Page α)) : List α := (run.filter (fun q => !isInfo q)).flatMap flat

/-- Parameters `apop_estimate` may give: named pages with nonempty parts, the first no info page. -/
def Usable (run : List (Page α)) : Prop :=
  ∃ p ps, run = p :: ps ∧ isInfo p = false ∧ (∀ q ∈ ps, q.names ≠ none) ∧
    (∀ q ∈ run.filter (fun q => !isInfo q), Solid q) ∧ TailsFull (ps.filter (fun q => !isInfo q))

/-! ### Proofs -/

theorem row_ok (junk : α) (w : Nat) {run : List (Page α)} (h : Usable run) (hw : (numbers run).length = w) (hpos : 0 < w) :
    row junk w run = .ok (numbers run) := by
  obtain ⟨p, ps, rfl, h1, h2, h3, h4⟩ := h
  have hk : (kept 'n' : Page α → Bool) = fun q => !isInfo q := by funext x; simp [kept, yes]
  have hlen : (numbers (p :: ps)).length = (((p :: ps).filter (kept 'n')).map pageSize).sum := by
    unfold numbers
    rw [List.length_flatMap, hk]
    congr 1
    exact List.map_congr_left (fun q hq => flat_length (h3 q hq))
  have := packInto_eq (u := 'n') (m := 'y') (Or.inl rfl) rfl ps.length p ps (List.replicate w junk) (Nat.le_refl _)
    (by rw [hk]; simp [h1]) (fun _ => h2) (by rw [hk]; exact h3) (by rw [hk]; exact h4) (by simpa using hpos)
    (by rw [← hlen, List.length_replicate, hw])
  unfold row
  rw [this, hk]
  rfl

theorem row_bad (junk : α) (w : Nat) {run : List (Page α)} (h : Usable run) (hw : (numbers run).length ≠ w) :
    row junk w run = .ok (List.replicate w junk) := by
  obtain ⟨p, ps, rfl, h1, h2, h3, h4⟩ := h
  have hk : (kept 'n' : Page α → Bool) = fun q => !isInfo q := by funext x; simp [kept, yes]
  have hlen : (numbers (p :: ps)).length = sizecount (yes 'y') (yes 'n') (p :: ps) := by
    have : sizecount (yes 'y') (yes 'n') (p :: ps) = (((p :: ps).filter (kept 'n')).map pageSize).sum := sizecount_eq _
    rw [this]
    unfold numbers
    rw [List.length_flatMap, hk]
    congr 1
    exact List.map_congr_left (fun q hq => flat_length (h3 q hq))
  unfold row
  rw [C21_pack_wrong_size 'y' 'n' (p :: ps) _ (by rw [List.length_replicate, ← hlen]; exact fun e => hw e.symm)]
  rfl

theorem rows_ok (junk : α) (w : Nat) (f : List (Page α) → List α) : ∀ (runs : List (List (Page α))),
    (∀ r ∈ runs, row junk w r = .ok (f r)) → rows junk w runs = .ok (runs.map f)
  | [], _ => rfl
  | r :: rs, h => by
    simp only [rows, h r (by simp), Res.bind_ok, rows_ok junk w f rs (fun x hx => h x (by simp [hx])), List.map_cons]

theorem column_ok (k : Nat) : ∀ (m : List (List α)), (∀ r ∈ m, k < r.length) →
    ∃ c, column k m = .ok c ∧ c.map some = m.map (fun r => r[k]?)
  | [], _ => ⟨[], rfl, rfl⟩
  | r :: rs, h => by
    obtain ⟨c, e, q⟩ := column_ok k rs (fun x hx => h x (by simp [hx]))
    have hk := h r (by simp)
    refine ⟨r[k] :: c, ?_, ?_⟩
    · simp only [column, rd_of_lt hk, Res.bind_ok, e]
    · simp [q, hk]

/-- **C198**: if the parameters are a vector of `w` elements (any info pages besides), the data of
the PMF are the parameters of every run, in order; for one parameter, that element of every run. -/
theorem C198_vector_parameters (junk : α) (p : Page α) (v : List α) (hv : p.vector = some v) (hm : p.matrix = none)
    (runs : List (List (Page α))) (hr : ∀ r ∈ runs, Usable r ∧ (numbers r).length = v.length) (hpos : v ≠ []) :
    parameterModel junk none p runs = .ok (.all (runs.map numbers)) ∧
    ∀ k, k < v.length → ∃ c, parameterModel junk (some k) p runs = .ok (.one c) ∧
      c.map some = runs.map (fun r => (numbers r)[k]?) := by
  have hw : width p = v.length := by simp [width, hv, hm]
  have hv0 : 0 < v.length := List.length_pos_iff.2 hpos
  have e := rows_ok junk v.length numbers runs (fun r h => row_ok junk _ (hr r h).1 (hr r h).2 hv0)
  refine ⟨by simp only [parameterModel, hw, e, Res.bind_ok], fun k hk => ?_⟩
  obtain ⟨c, ec, q⟩ := column_ok k (runs.map numbers) (fun r h => by
    obtain ⟨x, hx, rfl⟩ := List.mem_map.1 h
    rw [(hr x hx).2]; exact hk)
  refine ⟨c, by simp only [parameterModel, hw, e, Res.bind_ok, ec], ?_⟩
  rw [q, List.map_map]; rfl

/-- **C198, for which other shapes it works**: parameters of one page with a vector of `v` (maybe
zero) and a matrix of `r` rows and `c` columns: the data are the parameters of the runs if the
matrix is two by two. -/
theorem C198_two_by_two (junk : α) (p : Page α) (m : Mat α) (hm : p.matrix = some m) (h2 : m.size1 = 2) (h2' : m.cols = 2)
    (runs : List (List (Page α)))
    (hr : ∀ r ∈ runs, Usable r ∧ (numbers r).length = (p.vector.map List.length).getD 0 + m.size1 * m.cols) :
    parameterModel junk none p runs = .ok (.all (runs.map numbers)) := by
  have hw : width p = (p.vector.map List.length).getD 0 + m.size1 * m.cols := by simp [width, hm, h2, h2']
  have e := rows_ok junk (width p) numbers runs (fun r h => row_ok junk _ (hr r h).1 (by rw [(hr r h).2, hw]) (by rw [hw, h2, h2']; omega))
  simp only [parameterModel, e, Res.bind_ok]

theorem mul_eq_add {r c : Nat} (hr : 0 < r) (hc : 0 < c) (h : r * c = r + c) : r = 2 ∧ c = 2 := by
  have h1 : c ∣ r := by
    have : c ∣ r + c := ⟨r, by rw [← h, Nat.mul_comm]⟩
    exact (Nat.dvd_add_left (Nat.dvd_refl c)).1 this
  have h2 : r ∣ c := by
    have : r ∣ r + c := ⟨c, by rw [← h]⟩
    exact (Nat.dvd_add_right (Nat.dvd_refl r)).1 this
  have e : r = c := Nat.dvd_antisymm h2 h1
  subst e
  have : r * r = r * 2 := by omega
  have := Nat.eq_of_mul_eq_mul_left hr this
  exact ⟨this, this⟩

/-- **C198, counterexample for every other matrix**: with a matrix of parameters that is not two by
two, none of the runs' parameters get into the PMF: its data are whatever was in memory. -/
theorem C198_matrix_refuted (junk : α) (p : Page α) (m : Mat α) (hm : p.matrix = some m) (h1 : 0 < m.size1) (h2 : 0 < m.cols)
    (hn : ¬ (m.size1 = 2 ∧ m.cols = 2)) (runs : List (List (Page α)))
    (hr : ∀ r ∈ runs, Usable r ∧ (numbers r).length = (p.vector.map List.length).getD 0 + m.size1 * m.cols) :
    parameterModel junk none p runs = .ok (.all (runs.map (fun _ => List.replicate (width p) junk))) := by
  have hw : width p = (p.vector.map List.length).getD 0 + (m.size1 + m.cols) := by simp [width, hm]; omega
  have hne : m.size1 * m.cols ≠ m.size1 + m.cols := fun e => hn (mul_eq_add h1 h2 e)
  have e := rows_ok junk (width p) (fun _ => List.replicate (width p) junk) runs (fun r h => row_bad junk _ (hr r h).1 (by rw [(hr r h).2, hw]; omega))
  simp only [parameterModel, e, Res.bind_ok]

/-- A run with two parameters and a covariance page. -/
def run2 (a b : Int) : List (Page Int) :=
  [{ vector := some [a, b], names := some Names.alloc },
   { matrix := some ⟨[[1, 0], [0, 1]], 2⟩, names := some { Names.alloc with title := some ([60, 67, 62]) } }]

theorem run2_usable (a b : Int) : Usable (run2 a b) ∧ (numbers (run2 a b)).length = 2 := by
  refine ⟨⟨_, _, rfl, rfl, ?_, ?_, trivial⟩, rfl⟩
  · intro q hq
    simp only [List.mem_singleton] at hq
    subst hq; simp
  · intro q hq
    have : (run2 a b).filter (fun q => !isInfo q) = [{ vector := some [a, b], names := some Names.alloc }] := rfl
    rw [this, List.mem_singleton] at hq
    subst hq
    constructor <;> simp

/-- Three runs of a model with two parameters. -/
example : parameterModel (99 : Int) none (run2 0 0)[0] [run2 1 2, run2 3 4, run2 5 6] = .ok (.all [[1, 2], [3, 4], [5, 6]]) :=
  (C198_vector_parameters (99 : Int) (run2 0 0)[0] [0, 0] rfl rfl [run2 1 2, run2 3 4, run2 5 6] (by
    intro r hr
    simp only [List.mem_cons, List.not_mem_nil, or_false] at hr
    rcases hr with rfl | rfl | rfl <;> exact run2_usable _ _) (by simp)).1

/-- One run of a model with a three by one matrix of parameters. -/
def run3 : List (Page Int) := [{ matrix := some ⟨[[1], [2], [3]], 1⟩, names := some Names.alloc }]

theorem run3_usable : Usable run3 ∧ (numbers run3).length = 3 := by
  refine ⟨⟨_, _, rfl, rfl, by simp, ?_, trivial⟩, rfl⟩
  intro q hq
  have : run3.filter (fun q => !isInfo q) = run3 := rfl
  rw [this, run3, List.mem_singleton] at hq
  subst hq
  constructor <;> simp [Mat.WF]

example : parameterModel (99 : Int) none run3[0] [run3] = .ok (.all [[99, 99, 99, 99]]) :=
  C198_matrix_refuted (99 : Int) run3[0] ⟨[[1], [2], [3]], 1⟩ rfl (by decide) (by decide) (by decide) [run3] (by
    intro r hr
    simp only [List.mem_singleton] at hr
    subst hr
    exact run3_usable)

end Apop.ParamModel
