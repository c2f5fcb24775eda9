import Verif.Map.Props

/-! # Functions on rows and columns (C48) and sums (C49) -/

namespace Apop.Map
open Par
open Rows (maxsize)
variable {α : Type}

/-! ## What the loops do -/

theorem reCell_run {J K : Type} [DecidableEq J] [DecidableEq K] (g : J → K) (hg : ∀ a b, g a = g b → a = b) (p : Prog J α) :
    ∀ (c : K → α), ((reCell g p).run c).1 = (p.run (fun j => c (g j))).1 ∧
      (∀ j, ((reCell g p).run c).2 (g j) = (p.run (fun j => c (g j))).2 j) ∧
      (∀ k, (∀ j, k ≠ g j) → ((reCell g p).run c).2 k = c k) := by
  induction p with
  | ret v => intro c; exact ⟨rfl, fun _ => rfl, fun _ _ => rfl⟩
  | get j k ih => intro c; exact ih (c (g j)) c
  | put j v k ih =>
    intro c
    have hu : (fun i => upd c (g j) v (g i)) = upd (fun i => c (g i)) j v := by
      funext i
      simp only [upd]
      by_cases h : i = j
      · simp [h]
      · rw [if_neg (fun e => h (hg _ _ e)), if_neg h]
    have := ih (upd c (g j) v)
    rw [hu] at this
    refine ⟨this.1, this.2.1, fun k hk => ?_⟩
    rw [show (reCell g (Prog.put j v _)).run c = (reCell g _).run (upd c (g j) v) from rfl, this.2.2 k hk]
    simp [upd, hk j]

/-- A function on vectors, run alone on one vector: its value, and the vector as it leaves it. This is the specification of what a map over rows or columns does to
each of them. -/
def alone (junk : α) (p : Prog Nat α) (l : List α) : α × List α :=
  ((p.run (fun j => l.getD j junk)).1, (List.range l.length).map (p.run (fun j => l.getD j junk)).2)

theorem forBody_run (f : (size index : Nat) → Prog Nat α) (size : Nat) (b : Bool) (i : Nat) (c : Option Nat → α) :
    (∀ j, ((forBody f size b i).run c).2 (some j) = ((f size i).run (fun j => c (some j))).2 j) ∧
    (b = true → ((forBody f size b i).run c).2 none = ((f size i).run (fun j => c (some j))).1) := by
  have h := reCell_run (some : Nat → Option Nat) (fun a b e => by simpa using e) (f size i) c
  unfold forBody
  rw [bind_run]
  cases b with
  | false => simpa [Prog.run] using h.2.1
  | true => simp [Prog.run, upd, h.1, h.2.1]

theorem mapIdx_range {β γ : Type} (d : β) (l : List β) (g : Nat → β → γ) : l.mapIdx g = (List.range l.length).map (fun i => g i (l.getD i d)) := by
  apply List.ext_getElem
  · simp
  · intro i h1 h2
    have : i < l.length := by simpa using h1
    simp [List.getD_eq_getElem?_getD, List.getElem?_eq_getElem this]

/-- `forloop`: each vector as if it were alone, under every schedule. -/
theorem forLoop_done {junk : α} {σ : List Nat} {f : (size index : Nat) → Prog Nat α} {ls : List (List α)} {size : Nat} {vout : Option (List α)}
    {r : List (List α) × Option (List α)} (hl : ∀ l ∈ ls, l.length = size) (h : forLoop junk σ f ls size vout = .done r) :
    r = (ls.mapIdx (fun i l => (alone junk (f size i) l).2), vout.map (fun out => ls.mapIdx (fun i l => (alone junk (f size i) l).1) ++ out.drop ls.length)) := by
  unfold forLoop at h
  split at h
  · simp at h
  · rw [Run.bind_eq_done] at h
    obtain ⟨c, hc, h⟩ := h
    injection h with h
    rw [loop_done hc] at h
    rw [← h, mapIdx_range [], mapIdx_range []]
    congr 1
    · apply List.map_congr_left
      intro i hi
      rw [List.mem_range] at hi
      have hlen : (ls.getD i []).length = size := by
        rw [List.getD_eq_getElem?_getD, List.getElem?_eq_getElem hi]
        exact hl _ (List.getElem_mem hi)
      simp only [if_pos hi, alone, hlen]
      apply List.map_congr_left
      intro j _
      rw [(forBody_run f size _ i _).1 j]
      rfl
    · cases vout with
      | none => rfl
      | some out =>
        simp only [Option.map_some, Option.isSome_some]
        congr 2
        apply List.map_congr_left
        intro i hi
        rw [List.mem_range] at hi
        simp only [if_pos hi, alone]
        rw [(forBody_run f size true i _).2 rfl]
        rfl

/-- There is a schedule under which it comes to an end. -/
theorem forLoop_ends (junk : α) (f : (size index : Nat) → Prog Nat α) (ls : List (List α)) (size : Nat) (vout : Option (List α))
    (h : ∀ out, vout = some out → ls.length ≤ out.length) : ∃ (σ : List Nat) (r : List (List α) × Option (List α)), forLoop junk σ f ls size vout = .done r := by
  obtain ⟨σ, hσ⟩ := exists_fair ls.length (fun i => (forBody f size vout.isSome i).steps (forCells junk ls i))
  refine ⟨σ, ?_⟩
  unfold forLoop
  rw [if_neg]
  · rw [loop_fair hσ]; exact ⟨_, rfl⟩
  · cases vout with
    | none => simp
    | some out => have := h out rfl; simp; omega

/-! ## C48: functions on vectors -/

/-- **C48, rows.** A function on vectors mapped over the rows of a matrix into a new set: whatever the schedule, the vector of the new set has, for each row, the value
of the function run alone on that row; the rows of the input are as the function alone would leave them, and nothing else of the input is changed. -/
theorem C48_rows {junk : α} {sch : Nat → List Nat} {f : (size index : Nat) → Prog Nat α} {p p' : Page α} {m : Mat α} {o : Option (Page α)}
    (hm : p.matrix = some m) (hw : m.WF) (hs : maxsize p = m.size1) (h0 : 0 < m.size1) (h : mapPage junk sch (.vec f) 'r' .n p = .done (p', o)) :
    p' = { p with matrix := some { m with rows := m.rows.mapIdx (fun i row => (alone junk (f m.cols i) row).2) } } ∧
    ∃ q, o = some q ∧ q.vector = some (m.rows.mapIdx (fun i row => (alone junk (f m.cols i) row).1)) ∧ q.matrix = none ∧ q.error = none := by
  have hv : vecOnly p = false := by simp [vecOnly, hm]
  have h0' : ¬ m.size1 = 0 := by omega
  obtain ⟨n, hn⟩ := named_parts false 'r' p ({ vector := some (List.replicate m.size1 junk), names := some Names.alloc } : Page α)
  have hset : setup junk false 'r' .n p = (p, some { vector := some (List.replicate m.size1 junk), names := n }) := by
    simp [setup, newOut, hv, hs, allocV, h0', hn]
  unfold mapPage at h
  rw [if_neg (by simp [Fn.isScalar])] at h
  simp only [Fn.byRows, hset, hm, true_or, if_true, Option.bind_some] at h
  rw [Run.bind_eq_done] at h
  obtain ⟨⟨m', v⟩, hmv, h⟩ := h
  unfold vecMap at hmv
  rw [if_pos rfl, Run.bind_eq_done] at hmv
  obtain ⟨⟨rows, out⟩, hfl, hmv⟩ := hmv
  injection hmv with hmv
  injection h with h
  simp only [Prod.mk.injEq] at h hmv
  have := forLoop_done hw hfl
  simp only [Prod.mk.injEq] at this
  rw [← h.1, ← h.2, ← hmv.1, ← hmv.2, this.1, this.2]
  refine ⟨rfl, _, rfl, ?_, rfl, rfl⟩
  simp [Mat.size1]

/-- **C48, columns.** The same for the columns. -/
theorem C48_columns {junk : α} {sch : Nat → List Nat} {f : (size index : Nat) → Prog Nat α} {p p' : Page α} {m : Mat α} {o : Option (Page α)}
    (hm : p.matrix = some m) (h0 : 0 < m.cols) (h : mapPage junk sch (.vec f) 'c' .n p = .done (p', o)) :
    (∃ m', p' = { p with matrix := some m' } ∧ m'.cols = m.cols ∧ m'.size1 = m.size1 ∧
      ∀ i j, i < m.size1 → j < m.cols → m'.get? i j = (alone junk (f m.size1 j) (m.rows.map (fun r => r.getD j junk))).2[i]?) ∧
    ∃ q, o = some q ∧ q.vector = some ((List.range m.cols).map (fun j => (alone junk (f m.size1 j) (m.rows.map (fun r => r.getD j junk))).1)) ∧
      q.matrix = none ∧ q.error = none := by
  have hv : vecOnly p = false := by simp [vecOnly, hm]
  have h0' : ¬ m.cols = 0 := by omega
  obtain ⟨n, hn⟩ := named_parts false 'c' p ({ vector := some (List.replicate m.cols junk), names := some Names.alloc } : Page α)
  have hset : setup junk false 'c' .n p = (p, some { vector := some (List.replicate m.cols junk), names := n }) := by
    simp [setup, newOut, hv, msize2, hm, allocV, h0', hn]
  unfold mapPage at h
  rw [if_neg (by simp [Fn.isScalar])] at h
  simp only [Fn.byRows, hset, hm, or_true, if_true, Option.bind_some] at h
  rw [Run.bind_eq_done] at h
  obtain ⟨⟨m', v⟩, hmv, h⟩ := h
  unfold vecMap at hmv
  rw [if_neg (by decide), Run.bind_eq_done] at hmv
  obtain ⟨⟨cols, out⟩, hfl, hmv⟩ := hmv
  injection hmv with hmv
  injection h with h
  simp only [Prod.mk.injEq] at h hmv
  have := forLoop_done (fun l hl => by simp [columns, colOf] at hl; obtain ⟨a, _, e⟩ := hl; rw [← e]; simp [Mat.size1]) hfl
  simp only [Prod.mk.injEq] at this
  rw [← h.1, ← h.2, ← hmv.1, ← hmv.2, this.1, this.2]
  refine ⟨⟨_, rfl, rfl, by simp [Mat.size1], fun i j hi hj => ?_⟩, _, rfl, ?_, rfl, rfl⟩
  · have hi' : i < m.rows.length := hi
    simp [Mat.get?, hi, columns, colOf, hj, alone, List.getD_eq_getElem?_getD, hi']
  · simp only [Option.map_some, Option.some.injEq]
    rw [List.drop_of_length_le (by simp [columns]), List.append_nil, columns]
    apply List.ext_getElem?
    intro i
    rcases Nat.lt_or_ge i m.cols with hi | hi
    · simp [hi, colOf]
    · rw [List.getElem?_eq_none (by simpa using hi), List.getElem?_eq_none (by simpa using hi)]

/-- **C48, rows in place.** The values go to the vector, which is as long as there are rows. -/
theorem C48_rows_inplace {junk : α} {sch : Nat → List Nat} {f : (size index : Nat) → Prog Nat α} {p p' : Page α} {m : Mat α} {o : Option (Page α)}
    (hm : p.matrix = some m) (hw : m.WF) (hs : maxsize p = m.size1) (hv : ∀ v, p.vector = some v → v.length = m.size1)
    (h : mapPage junk sch (.vec f) 'r' .y p = .done (p', o)) :
    o = some p' ∧ p' = { p with
      matrix := some { m with rows := m.rows.mapIdx (fun i row => (alone junk (f m.cols i) row).2) }
      vector := some (m.rows.mapIdx (fun i row => (alone junk (f m.cols i) row).1)) } := by
  unfold mapPage at h
  rw [if_neg (by simp [Fn.isScalar])] at h
  have hset : ∃ w : List α, w.length = m.size1 ∧ setup junk false 'r' .y p = ({ p with vector := some w }, some { p with vector := some w }) := by
    cases hpv : p.vector with
    | none => exact ⟨List.replicate (maxsize p) junk, by simp [hs], by simp [setup, hpv]⟩
    | some v => exact ⟨v, hv v hpv, by simp [setup, hpv]; cases p; simp_all⟩
  obtain ⟨w, hwl, hset⟩ := hset
  simp only [Fn.byRows, hset, hm, true_or, if_true, Option.bind_some] at h
  rw [Run.bind_eq_done] at h
  obtain ⟨⟨m', v⟩, hmv, h⟩ := h
  unfold vecMap at hmv
  rw [if_pos rfl, Run.bind_eq_done] at hmv
  obtain ⟨⟨rows, out⟩, hfl, hmv⟩ := hmv
  injection hmv with hmv
  injection h with h
  simp only [Prod.mk.injEq] at h hmv
  have := forLoop_done hw hfl
  simp only [Prod.mk.injEq, Option.map_some] at this
  rw [List.drop_of_length_le (by rw [hwl]; exact Nat.le_refl _), List.append_nil] at this
  rw [← h.2, ← h.1, ← hmv.1, ← hmv.2, this.1, this.2]
  exact ⟨rfl, rfl⟩

/-- **C48, columns in place: out of bounds.** The vector made for the output has as many elements as there are rows; with more columns than rows the
map writes past its end (GSL stops the program), for every function and schedule. -/
theorem C48_columns_inplace_overrun {junk : α} {sch : Nat → List Nat} {f : (size index : Nat) → Prog Nat α} {p : Page α} {m : Mat α}
    (hm : p.matrix = some m) (hv : p.vector = none) (hs : maxsize p < m.cols) : mapPage junk sch (.vec f) 'c' .y p = .ub := by
  unfold mapPage
  rw [if_neg (by simp [Fn.isScalar])]
  have hset : setup junk false 'c' .y p = ({ p with vector := some (List.replicate (maxsize p) junk) }, some { p with vector := some (List.replicate (maxsize p) junk) }) := by
    simp [setup, hv]
  simp only [Fn.byRows, hset, hm, or_true, if_true, Option.bind_some]
  unfold vecMap forLoop
  rw [if_neg (by decide), if_pos (by simpa [columns] using hs)]
  rfl

/-- A function on rows or columns of a set without matrix: the result is marked 'p'. -/
theorem C48_no_matrix (junk : α) (sch : Nat → List Nat) (f : (size index : Nat) → Prog Nat α) (part : Char) (hpart : part = 'r' ∨ part = 'c') (p : Page α)
    (hm : p.matrix = none) : ∃ q, mapPage junk sch (.vec f) part .n p = .done (p, some q) ∧ q.error = some 'p' := by
  refine ⟨withErr 'p' (setup junk false part .n p).2, ?_, rfl⟩
  unfold mapPage
  rw [if_neg (by simp [Fn.isScalar])]
  simp only [setup, Fn.byRows, if_pos hpart, hm]
  rfl

/-! ## C48: functions on rows of a data set -/

/-- What a function on rows sees of row `i`: the element of each part at that place. -/
theorem rowLoop_done {junk : α} {σ : List Nat} {f : (index : Nat) → Prog RowCell α} {p : Page α} {vout : Option (List α)} {r : Page α × Option (List α)}
    (h : rowLoop junk σ f p vout false = .done r) :
    r = (rowBack (fun i => if i < maxsize p then if vout.isSome then upd ((f i).run (rowCells junk p i)).2 .out ((f i).run (rowCells junk p i)).1
        else ((f i).run (rowCells junk p i)).2 else rowCells junk p i) p,
      vout.map (fun out => (List.range (maxsize p)).map (fun i => ((f i).run (rowCells junk p i)).1) ++ out.drop (maxsize p))) := by
  unfold rowLoop at h
  split at h
  · simp at h
  · rw [Run.bind_eq_done] at h
    obtain ⟨c, hc, h⟩ := h
    injection h with h
    rw [loop_done hc] at h
    rw [← h]
    congr 1
    · congr 1
      funext i
      split
      · rw [rowBody, bind_run]
        cases vout <;> rfl
      · rfl
    · cases vout with
      | none => rfl
      | some out =>
        simp only [Option.map_some, Option.isSome_some]
        congr 2
        apply List.map_congr_left
        intro i hi
        rw [List.mem_range] at hi
        rw [if_pos hi, rowBody, bind_run]
        simp [Prog.run, upd, rowOut]

/-- What a function on rows finds in its row: the elements of the parts of the data set at that place. -/
theorem C48_row_view (junk : α) (p : Page α) (i : Nat) :
    (∀ v x, p.vector = some v → v[i]? = some x → rowCells junk p i .vec = x) ∧
    (∀ m j x, p.matrix = some m → m.get? i j = some x → rowCells junk p i (.mat j) = x) ∧
    (∀ w x, p.weights = some w → w[i]? = some x → rowCells junk p i .wt = x) := by
  refine ⟨fun v x hv hx => by simp [rowCells, hv, hx, List.getD_eq_getElem?_getD], fun m j x hm hx => ?_,
    fun v x hv hx => by simp [rowCells, hv, hx, List.getD_eq_getElem?_getD]⟩
  simp only [Mat.get?] at hx
  cases hr : m.rows[i]? with
  | none => simp [hr] at hx
  | some r =>
    simp [hr] at hx
    simp [rowCells, hm, hr, hx, List.getD_eq_getElem?_getD]

/-- **C48, rows of a data set.** A function on one row sets (`fn_r`), new set: the vector of the result is as long as the longest of vector, matrix and text of the input,
and its element `i` is the value of the function run alone on row `i`. -/
theorem C48_row_sets {junk : α} {sch : Nat → List Nat} {f : (index : Nat) → Prog RowCell α} {part : Char} {p p' : Page α} {o : Option (Page α)}
    (h0 : 0 < maxsize p) (h : mapPage junk sch (.row f) part .n p = .done (p', o)) :
    ∃ q, o = some q ∧ q.vector = some ((List.range (maxsize p)).map (fun i => ((f i).run (rowCells junk p i)).1)) ∧ q.matrix = none ∧ q.error = none := by
  unfold mapPage at h
  rw [if_neg (by simp [Fn.isScalar])] at h
  have hmax : max p.textsize.1 (maxsize p) = maxsize p := by
    have : p.textsize.1 ≤ maxsize p := by unfold maxsize; omega
    omega
  obtain ⟨n, hn⟩ := named_parts true part p ({ vector := some (List.replicate (maxsize p) junk), names := some Names.alloc } : Page α)
  have hset : setup junk true part .n p = (p, some { vector := some (List.replicate (maxsize p) junk), names := n }) := by
    have : ¬ maxsize p = 0 := by omega
    simp [setup, newOut, hmax, allocV, this, hn]
  simp only [Fn.byRows, hset, Option.bind_some, reduceCtorEq, decide_false] at h
  rw [Run.bind_eq_done] at h
  obtain ⟨⟨p1, v⟩, hl, h⟩ := h
  injection h with h
  simp only [Prod.mk.injEq] at h
  have := rowLoop_done hl
  simp only [Prod.mk.injEq] at this
  rw [← h.2, this.2]
  refine ⟨_, rfl, ?_, rfl, rfl⟩
  simp

/-- The input after the call: row `i` of each part is what the function alone makes of row `i`. -/
theorem C48_row_sets_input {junk : α} {sch : Nat → List Nat} {f : (index : Nat) → Prog RowCell α} {part : Char} {p p' : Page α} {o : Option (Page α)}
    (h : mapPage junk sch (.row f) part .n p = .done (p', o)) :
    (∀ v i, p.vector = some v → i < v.length → ∃ v', p'.vector = some v' ∧ v'[i]? = some (((f i).run (rowCells junk p i)).2 .vec)) ∧
    (∀ m i j, p.matrix = some m → i < m.size1 → j < m.cols → ∃ m', p'.matrix = some m' ∧ m'.get? i j = some (((f i).run (rowCells junk p i)).2 (.mat j))) ∧
    p'.names = p.names ∧ p'.text = p.text := by
  unfold mapPage at h
  rw [if_neg (by simp [Fn.isScalar])] at h
  simp only [Fn.byRows, setup, reduceCtorEq, decide_false] at h
  rw [Run.bind_eq_done] at h
  obtain ⟨⟨p1, v⟩, hl, h⟩ := h
  injection h with h
  simp only [Prod.mk.injEq] at h
  have := rowLoop_done hl
  simp only [Prod.mk.injEq] at this
  rw [← h.1, this.1]
  refine ⟨fun v i hv hi => ?_, fun m i j hm hi hj => ?_, rfl, rfl⟩
  · have hi' : i < maxsize p := by simp [maxsize, hv]; omega
    refine ⟨_, by simp only [rowBack, hv, Option.map_some]; rfl, ?_⟩
    simp only [fromCells, List.getElem?_map, List.getElem?_range hi, Option.map_some, if_pos hi']
    split <;> simp [upd]
  · have hi' : i < maxsize p := by simp [maxsize, hm]; omega
    refine ⟨_, by simp only [rowBack, hm, Option.map_some]; rfl, ?_⟩
    simp only [Mat.get?, List.getElem?_map, List.getElem?_range hi, Option.map_some, if_pos hi', Option.bind_some, List.getElem?_range hj]
    split <;> simp [upd]

/-- **C48, rows of a data set in place.** With a vector as long as the set: the values go to the vector, and the matrix is as the function leaves it, row by row. -/
theorem C48_row_sets_inplace {junk : α} {sch : Nat → List Nat} {f : (index : Nat) → Prog RowCell α} {p p' : Page α} {v : List α} {o : Option (Page α)}
    (hv : p.vector = some v) (hl : v.length = maxsize p) (h : mapPage junk sch (.row f) 'a' .y p = .done (p', o)) :
    o = some p' ∧ p'.vector = some ((List.range v.length).map (fun i => ((f i).run (rowCells junk p i)).1)) ∧
    (∀ m i j, p.matrix = some m → i < m.size1 → j < m.cols → ∃ m', p'.matrix = some m' ∧ m'.get? i j = some (((f i).run (rowCells junk p i)).2 (.mat j))) ∧
    p'.names = p.names ∧ p'.text = p.text := by
  unfold mapPage at h
  rw [if_neg (by simp [Fn.isScalar])] at h
  simp only [Fn.byRows, setup, hv, Option.isNone_some, Bool.false_eq_true, and_false, if_false, Option.bind_some, decide_true] at h
  rw [Run.bind_eq_done] at h
  obtain ⟨⟨p1, w⟩, hlp, h⟩ := h
  injection h with h
  simp only [Prod.mk.injEq] at h
  unfold rowLoop at hlp
  split at hlp
  · simp at hlp
  · rw [Run.bind_eq_done] at hlp
    obtain ⟨c, hc, hlp⟩ := hlp
    injection hlp with hlp
    simp only [Prod.mk.injEq, Option.map_some, if_true, Option.isSome_some] at hlp hc
    have hrun : ∀ i, i < maxsize p → c i = upd ((f i).run (rowCells junk p i)).2 .vec ((f i).run (rowCells junk p i)).1 := by
      intro i hi
      rw [loop_done hc]
      simp only [if_pos hi, rowBody, bind_run]
      rfl
    rw [← h.2, ← h.1]
    refine ⟨rfl, ?_, fun m i j hm hi hj => ?_, by rw [← hlp.1]; rfl, by rw [← hlp.1]; rfl⟩
    · simp only
      rw [← hlp.2, ← hl, List.drop_of_length_le (Nat.le_refl _), List.append_nil]
      congr 1
      apply List.map_congr_left
      intro i hi
      rw [List.mem_range] at hi
      rw [hrun i (by omega)]
      simp [upd]
    · have hi' : i < maxsize p := by simp [maxsize, hm]; omega
      refine ⟨_, by simp only [← hlp.1, rowBack, hm, Option.map_some]; rfl, ?_⟩
      simp [Mat.get?, hi, hj, hrun i hi', upd]

/-- In place without a vector: the values of the function are lost (`part` is 'a' by default, and the vector is made only for 'r' and 'c'). -/
theorem C48_row_sets_inplace_no_vector {junk : α} {sch : Nat → List Nat} {f : (index : Nat) → Prog RowCell α} {p p' : Page α} {o : Option (Page α)}
    (hv : p.vector = none) (h : mapPage junk sch (.row f) 'a' .y p = .done (p', o)) : o = some p' ∧ p'.vector = none := by
  unfold mapPage at h
  rw [if_neg (by simp [Fn.isScalar])] at h
  simp only [Fn.byRows, setup, hv, Option.bind_some, decide_true] at h
  rw [if_neg (by simp)] at h
  rw [Run.bind_eq_done] at h
  obtain ⟨⟨p1, w⟩, hlp, h⟩ := h
  injection h with h
  simp only [Prod.mk.injEq] at h
  unfold rowLoop at hlp
  simp only [hv, Option.any_none, Bool.false_eq_true, if_false] at hlp
  rw [Run.bind_eq_done] at hlp
  obtain ⟨c, hc, hlp⟩ := hlp
  injection hlp with hlp
  simp only [Prod.mk.injEq, Option.map_none] at hlp
  rw [← h.2, ← h.1, ← hlp.2]
  exact ⟨rfl, rfl⟩

/-- Two rows, a function that returns the first element and then sets it to the second, iterations interleaved. -/
example : mapPage 0 (fun _ => [0, 1, 1, 0, 1, 0, 0, 1]) (.vec (fun _ _ => .get 0 (fun a => .get 1 (fun b => .put 0 b (.ret a))))) 'r' .n
      { matrix := some ⟨[[1, 2], [3, 4]], 2⟩ } =
    .done ({ matrix := some ⟨[[2, 2], [4, 4]], 2⟩ }, some { vector := some [1, 3], names := some Names.alloc }) := by decide +kernel

example : mapPage 0 (fun _ => [0, 1, 1, 0, 1, 0]) (.row (fun _ => .get .vec (fun a => .get (.mat 0) (fun b => .ret (a + b))))) 'a' .n
      { vector := some [5, 6], matrix := some ⟨[[1, 2], [3, 4]], 2⟩ } =
    .done ({ vector := some [5, 6], matrix := some ⟨[[1, 2], [3, 4]], 2⟩ }, some { vector := some [6, 9], names := some Names.alloc }) := by decide +kernel

/-! ## C49: sums -/

section Sum
variable [Add α] [Zero α]

/-- **C49, numbers.** `apop_map_sum` of a function on numbers, one page: the sum of the function's values over the elements of the vector plus that over the elements of the matrix, in order; zero
for a part that is not there. -/
theorem C49_numbers {junk : α} {sch : Nat → Nat → List Nat} {f : α → α} {p : Page α} {s : α} (hp : Full p)
    (h : mapSum junk sch (.scalar (fun x _ => f x)) 'a' false 0 [p] = .done s) :
    s = ((match p.vector with | none => 0 | some v => vsum (v.map f)) +
      (match p.matrix with | none => 0 | some m => msum { m with rows := m.rows.map (List.map f) })) + 0 := by
  rw [mapSum, Run.bind_eq_done] at h
  obtain ⟨⟨p', o⟩, hm, h⟩ := h
  obtain ⟨_, q, hq, h1, h2, _⟩ := C46_new hp (by simp) (by simp) hm
  subst hq
  simp at h
  rw [← h, pageSum, h1, h2]
  simp only [or_true, if_true]
  cases p.vector <;> cases p.matrix <;> rfl

/-- **C49, rows.** A function on vectors: the sum of its values over the rows. -/
theorem C49_rows {junk : α} {sch : Nat → Nat → List Nat} {f : (size index : Nat) → Prog Nat α} {p : Page α} {m : Mat α} {s : α}
    (hm : p.matrix = some m) (hw : m.WF) (hs : maxsize p = m.size1) (h0 : 0 < m.size1) (h : mapSum junk sch (.vec f) 'r' false 0 [p] = .done s) :
    s = (vsum (m.rows.mapIdx (fun i row => (alone junk (f m.cols i) row).1)) + 0) + 0 := by
  rw [mapSum, Run.bind_eq_done] at h
  obtain ⟨⟨p', o⟩, hmp, h⟩ := h
  obtain ⟨_, q, hq, h1, h2, _⟩ := C48_rows hm hw hs h0 hmp
  subst hq
  simp at h
  rw [← h, pageSum, h1, h2]

/-- **C49, pages.** With `all_pages='y'`: the sum over the pages, each on its own, whatever each page's value. -/
theorem C49_pages {junk : α} {sch : Nat → Nat → List Nat} {fn : Fn α} {part : Char} {k : Nat} {p q : Page α} {ps : List (Page α)} {s : α}
    (h : mapSum junk sch fn part true k (p :: q :: ps) = .done s) :
    ∃ p' o a, mapPage junk (sch k) fn part .n p = .done (p', some o) ∧ mapSum junk sch fn part true (k + 1) (q :: ps) = .done a ∧ s = pageSum o + a := by
  rw [mapSum, Run.bind_eq_done] at h
  obtain ⟨⟨p', o⟩, hmp, h⟩ := h
  cases o with
  | none => simp at h
  | some o =>
    simp only [List.isEmpty_cons, Bool.false_eq_true, or_false, reduceCtorEq, if_false] at h
    rw [Run.bind_eq_done] at h
    obtain ⟨a, ha, h⟩ := h
    injection h with h
    exact ⟨p', o, a, hmp, ha, h.symm⟩

/-- The sum of nothing is zero. -/
theorem C49_null (junk : α) (sch : Nat → Nat → List Nat) (fn : Fn α) (part : Char) (all : Bool) : mapSum junk sch fn part all 0 [] = .done 0 := rfl

/-- **C49 fails for a set with a vector only and a function on vectors**: the default part is 'r', there is no matrix, and the call returns, without any error to be seen, the sum of a new vector no element of
which was ever written. -/
theorem C49_vector_only_garbage (junk : α) (sch : Nat → Nat → List Nat) (f : (size index : Nat) → Prog Nat α) (v : List α) (hv : v ≠ []) :
    mapSum junk sch (.vec f) 'r' false 0 [{ vector := some v }] = .done ((vsum (List.replicate v.length junk) + 0) + 0) := by
  have : v.length ≠ 0 := by simpa using hv
  simp [mapSum, mapPage, setup, newOut, vecOnly, Fn.byRows, Fn.isScalar, allocV, vsize, this, named, withErr, pageSum]

/-- A function on numbers with part 'r' or 'c' is an error `apop_map_sum` does not report: it returns zero. -/
theorem C49_scalar_on_rows_zero (junk : α) (sch : Nat → Nat → List Nat) (f : α → Nat → α) (p : Page α) (part : Char) (h : part = 'r' ∨ part = 'c') :
    mapSum junk sch (.scalar f) part false 0 [p] = .done ((0 + 0) + 0) := by
  rcases h with h | h <;> subst h <;> simp [mapSum, mapPage, Fn.isScalar, Page.empty, pageSum]

end Sum

/-- Two pages, in whole numbers. -/
example : mapSum 0 (fun _ _ => [0, 1, 0, 1, 2, 2]) (.scalar (fun x _ => x * x)) 'a' true 0 [{ vector := some [1, 2, 3] }, { matrix := some ⟨[[1], [4]], 1⟩ }] = .done 31 := by
  decide +kernel

/-! ## Pages -/

/-- `inplace='v'` and `all_pages='y'` with a second page: a write through a NULL pointer, for every function on numbers. -/
theorem C46_void_pages_crash (junk : α) (sch : Nat → Nat → List Nat) (f : α → Nat → α) (p q : Page α) :
    map junk sch (.scalar f) 'a' .v true 0 [p, q] = .ub := by
  simp [map, mapPage, setup, Fn.isScalar, consOut]

/-- In place, all pages: every page is mapped (functions on numbers). -/
theorem C46_pages_inplace {junk : α} {sch : Nat → Nat → List Nat} {f : α → α} {part : Char} (hpart : part = 'v' ∨ part = 'm' ∨ part = 'a') :
    ∀ {ps ps' : List (Page α)} {k : Nat} {o : Option (List (Page α))}, (∀ p ∈ ps, Full p) → map junk sch (.scalar (fun x _ => f x)) part .y true k ps = .done (ps', o) →
    ps' = ps.map (fun p => { p with
      vector := if part = 'v' ∨ part = 'a' then p.vector.map (List.map f) else p.vector
      matrix := if part = 'm' ∨ part = 'a' then p.matrix.map (fun m => { m with rows := m.rows.map (List.map f) }) else p.matrix })
  | [], ps', k, o, _, h => by simp [map] at h; simp [h.1]
  | p :: ps, ps', k, o, hp, h => by
    rw [map, Run.bind_eq_done] at h
    obtain ⟨⟨p', q⟩, hm, h⟩ := h
    have hi := C46_inplace (hp p (by simp)) hpart hm
    have hrc : ¬((part = 'c' ∨ part = 'r') ∧ ((Fn.scalar (fun x _ => f x) : Fn α).isScalar = true ∨ ((Fn.scalar (fun x _ => f x) : Fn α).byRows = false ∧ p.matrix.isNone = true))) := by
      rintro ⟨h1 | h1, _⟩ <;> subst h1 <;> simp at hpart
    cases ps with
    | nil =>
      simp at h
      rw [← h.1, hi.2]
      rfl
    | cons p2 ps =>
      simp only [reduceCtorEq, List.isEmpty_cons, Bool.false_eq_true, false_or] at h
      rw [if_neg hrc, Run.bind_eq_done] at h
      obtain ⟨⟨ps1, os⟩, hr, h⟩ := h
      rw [Run.bind_eq_done] at h
      obtain ⟨r, _, h⟩ := h
      injection h with h
      simp only [Prod.mk.injEq] at h
      rw [← h.1, C46_pages_inplace hpart (fun x hx => hp x (by simp [hx])) hr, hi.2]
      simp only [List.map_cons]

end Apop.Map
