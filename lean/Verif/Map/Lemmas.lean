import Verif.Map.Model

/-! # What the loops do, whatever the schedule -/

namespace Apop.Map
open Par
open Rows (maxsize)
variable {α : Type}

theorem vecBody_run (f : α → Nat → α) (same : Bool) (i : Nat) (c : Cell → α) :
    (if same = true then ((vecBody f same i).run c).2 .inp else ((vecBody f same i).run c).2 .out) = f (c .inp) i ∧
    (same = false → ((vecBody f same i).run c).2 .inp = c .inp) := by
  cases same <;> simp [vecBody, Prog.run, upd, outCell]

theorem range_getD (junk : α) (g : α → Nat → α) (l : List α) : (List.range l.length).map (fun i => g (l.getD i junk) i) = l.mapIdx (fun i x => g x i) := by
  apply List.ext_getElem
  · simp
  · intro i h1 h2
    have : i < l.length := by simpa using h1
    simp [List.getD_eq_getElem?_getD, List.getElem?_eq_getElem this]

/-- `vectorloop`: element by element, under every schedule. -/
theorem vecLoop_done {junk : α} {σ : List Nat} {f : α → Nat → α} {v out : List α} {same : Bool} {r : Option (List α)}
    (h : vecLoop junk σ f v (some out) same = .done r) : r = some (v.mapIdx (fun i x => f x i) ++ out.drop v.length) := by
  simp only [vecLoop] at h
  split at h
  · simp at h
  · rw [Run.bind_eq_done] at h
    obtain ⟨c, hc, h⟩ := h
    injection h with h
    rw [loop_done hc] at h
    rw [← h, ← range_getD junk]
    congr 2
    apply List.map_congr_left
    intro i hi
    rw [List.mem_range] at hi
    simp only [if_pos hi, (vecBody_run f same i _).1]
    rfl

theorem vecLoop_fair {junk : α} {σ : List Nat} {f : α → Nat → α} {v out : List α} {same : Bool} (hl : v.length ≤ out.length)
    (hs : ∀ i < v.length, 2 ≤ σ.count i) : vecLoop junk σ f v (some out) same = .done (some (v.mapIdx (fun i x => f x i) ++ out.drop v.length)) := by
  have : ∃ r, vecLoop junk σ f v (some out) same = .done r := by
    simp only [vecLoop]
    rw [if_neg (by omega), loop_fair (fun i hi => by simpa [vecBody, Prog.steps] using hs i hi)]
    exact ⟨_, rfl⟩
  obtain ⟨r, hr⟩ := this
  rw [hr, vecLoop_done hr]

/-- Every pair of rows has the same length. -/
inductive SameShape : List (List α) → List (List α) → Prop
  | nil : SameShape [] []
  | cons {i o : List α} {ins outs : List (List α)} : i.length = o.length → SameShape ins outs → SameShape (i :: ins) (o :: outs)

theorem matRows_done {junk : α} {sch : Nat → List Nat} {f : α → Nat → α} {same : Bool} : ∀ {ins outs r : List (List α)} {k : Nat},
    SameShape ins outs → matRows junk sch f same k ins outs = .done r → r = ins.map (fun row => row.mapIdx (fun j x => f x j))
  | [], outs, r, k, hs, h => by
    cases hs
    simp [matRows] at h
    simp [h]
  | i :: ins, outs, r, k, hs, h => by
    cases hs with
    | @cons _ o _ outs hio hs =>
      rw [matRows, Run.bind_eq_done] at h
      obtain ⟨o', ho, h⟩ := h
      rw [Run.bind_eq_done] at h
      obtain ⟨rest, hr, h⟩ := h
      injection h with h
      rw [vecLoop_done ho, List.drop_of_length_le (by omega)] at h
      rw [← h, matRows_done hs hr]
      simp

theorem matRows_fair {junk : α} {sch : Nat → List Nat} {f : α → Nat → α} {same : Bool} {c : Nat} (hc : ∀ (k i : Nat), i < c → 2 ≤ (sch k).count i) :
    ∀ {ins outs : List (List α)} {k : Nat}, SameShape ins outs → (∀ row ∈ ins, row.length = c) →
    ∃ r, matRows junk sch f same k ins outs = .done r
  | [], outs, k, hs, _ => by cases hs; exact ⟨[], rfl⟩
  | i :: ins, outs, k, hs, hw => by
    cases hs with
    | @cons _ o _ outs hio hs =>
      obtain ⟨r, hr⟩ := matRows_fair (k := k + 1) (junk := junk) (f := f) (same := same) hc hs (fun row h => hw row (by simp [h]))
      have hi := hw i (by simp)
      refine ⟨i.mapIdx (fun j x => f x j) :: r, ?_⟩
      rw [matRows, vecLoop_fair (by omega) (fun j hj => hc k j (by omega)), List.drop_of_length_le (by omega)]
      simp only [Run.bind_done, hr, List.append_nil]
      rfl

theorem setCol_get (j : Nat) : ∀ (col : List α) (rows : List (List α)), col.length = rows.length →
    ∀ i : Nat, (setCol j col rows)[i]? = (rows[i]?).bind (fun (r : List α) => (col[i]?).map (fun v => r.set j v))
  | [], [], _, i => by simp [setCol]
  | v :: col, r :: rows, h, i => by
    cases i with
    | zero => simp [setCol]
    | succ i =>
      have := setCol_get j col rows (by simpa using h) i
      simp [setCol] at this ⊢
      exact this
  | [], _ :: _, h, _ => by simp at h
  | _ :: _, [], h, _ => by simp at h

theorem setCol_length (j : Nat) (col : List α) (rows : List (List α)) (h : col.length = rows.length) : (setCol j col rows).length = rows.length := by
  simp [setCol, h]

/-- After the columns from `j` on: the first `j` elements of each row are the old ones, the others are mapped. -/
theorem matCols_done {junk : α} {sch : Nat → List Nat} {f : α → Nat → α} {same : Bool} {c : Nat} : ∀ {n j : Nat} {ins outs r : List (List α)},
    j + n = c → ins.length = outs.length → (∀ row ∈ ins, row.length = c) → (∀ row ∈ outs, row.length = c) → (same = true → ins = outs) →
    matCols junk sch f same n j ins outs = .done r →
    r.length = ins.length ∧ ∀ i (a b : List α), ins[i]? = some a → outs[i]? = some b → r[i]? = some (b.take j ++ (a.drop j).map (fun x => f x i))
  | 0, j, ins, outs, r, hj, hl, hi, ho, hs, h => by
    simp [matCols] at h
    subst h
    refine ⟨hl.symm, fun i a b ha hb => ?_⟩
    have h1 := hi a (List.mem_of_getElem? ha)
    have h2 := ho b (List.mem_of_getElem? hb)
    rw [hb, List.take_of_length_le (by omega), List.drop_of_length_le (by omega)]
    simp
  | n + 1, j, ins, outs, r, hj, hl, hi, ho, hs, h => by
    rw [matCols, Run.bind_eq_done] at h
    obtain ⟨o', hv, h⟩ := h
    have hv' := vecLoop_done hv
    rw [List.drop_of_length_le (by simp [colOf, hl]), List.append_nil] at hv'
    simp only [hv', Option.getD_some] at h
    have hcl : ((colOf junk j ins).mapIdx (fun i x => f x i)).length = outs.length := by simp [colOf, hl]
    have hget := setCol_get j _ outs hcl
    have hsl := setCol_length j _ outs hcl
    have key : ∀ i (a b : List α), ins[i]? = some a → outs[i]? = some b →
        (setCol j ((colOf junk j ins).mapIdx (fun i x => f x i)) outs)[i]? = some (b.set j (f (a.getD j junk) i)) := by
      intro i a b ha hb
      rw [hget i, hb]
      simp [colOf, ha, List.getElem?_mapIdx]
    have hrow : ∀ row ∈ setCol j ((colOf junk j ins).mapIdx (fun i x => f x i)) outs, row.length = c := by
      intro row hm
      obtain ⟨i, hi'⟩ := List.getElem?_of_mem hm
      have hib : i < outs.length := by
        have := (List.getElem?_eq_some_iff.1 hi').1
        omega
      have hia : i < ins.length := by omega
      rw [key i _ _ (List.getElem?_eq_getElem hia) (List.getElem?_eq_getElem hib)] at hi'
      injection hi' with hi'
      rw [← hi', List.length_set]
      exact ho _ (List.getElem_mem hib)
    have ih := matCols_done (n := n) (j := j + 1) (c := c) (by omega)
      (by cases same <;> simp [hsl, hl]) (by cases same <;> simp <;> first | exact hrow | exact hi) hrow (by cases same <;> simp) h
    refine ⟨by rw [ih.1]; cases same <;> simp [hsl, hl], fun i a b ha hb => ?_⟩
    have hab : same = true → a = b := by
      intro hse
      have := hs hse
      subst this
      rw [ha] at hb
      injection hb
    have hla := hi a (List.mem_of_getElem? ha)
    have hlb := ho b (List.mem_of_getElem? hb)
    have hja : j < a.length := by omega
    have hk := key i a b ha hb
    have hdrop : ∃ a', (if same = true then setCol j ((colOf junk j ins).mapIdx (fun i x => f x i)) outs else ins)[i]? = some a' ∧
        a'.drop (j + 1) = a.drop (j + 1) := by
      cases hse : same with
      | false => exact ⟨a, by simpa using ha, rfl⟩
      | true =>
        refine ⟨_, by simpa using hk, ?_⟩
        rw [hab hse, List.drop_set_of_lt (by omega)]
    obtain ⟨a', ha', hd⟩ := hdrop
    rw [ih.2 i a' _ ha' hk, hd]
    congr 1
    rw [List.drop_eq_getElem_cons hja, List.map_cons]
    have : (b.set j (f (a.getD j junk) i)).take (j + 1) = b.take j ++ [f a[j] i] := by
      rw [List.take_add_one, List.take_set_of_le (Nat.le_refl j), List.getElem?_set_self (by omega)]
      simp [List.getD_eq_getElem?_getD, List.getElem?_eq_getElem hja]
    rw [this]
    simp

theorem matCols_fair {junk : α} {sch : Nat → List Nat} {f : α → Nat → α} {same : Bool} {rws : Nat} (hc : ∀ (k i : Nat), i < rws → 2 ≤ (sch k).count i) :
    ∀ {n j : Nat} {ins outs : List (List α)}, ins.length = rws → outs.length = rws → ∃ r, matCols junk sch f same n j ins outs = .done r
  | 0, j, ins, outs, h1, h2 => ⟨outs, rfl⟩
  | n + 1, j, ins, outs, h1, h2 => by
    rw [matCols, vecLoop_fair (by simp [colOf, h1, h2]) (fun i hi => hc j i (by simpa [colOf, h1] using hi))]
    simp only [Run.bind_done]
    have hl : (setCol j ((some ((colOf junk j ins).mapIdx (fun i x => f x i) ++ (colOf junk j outs).drop (colOf junk j ins).length)).getD []) outs).length = rws := by
      rw [setCol_length _ _ _ (by simp [colOf, h1, h2]), h2]
    exact matCols_fair hc (by cases same <;> simp only [if_true, if_false, Bool.false_eq_true] <;> first | exact h1 | exact hl) hl

/-- The matrix with the function on every element; the index it gets is that of the column in a matrix with no more rows than columns, else that of the row. -/
def matMapped (f : α → Nat → α) (m : Mat α) : Mat α :=
  { m with rows := if m.size1 ≤ m.cols then m.rows.map (fun row => row.mapIdx (fun j x => f x j)) else m.rows.mapIdx (fun i row => row.map (fun x => f x i)) }

theorem sameShape_of : ∀ {a b : List (List α)}, a.length = b.length → (∀ x ∈ a, ∀ y ∈ b, x.length = y.length) → SameShape a b
  | [], [], _, _ => .nil
  | x :: a, y :: b, h, hr => .cons (hr x (by simp) y (by simp)) (sameShape_of (by simpa using h) (fun x hx y hy => hr x (by simp [hx]) y (by simp [hy])))
  | [], _ :: _, h, _ => by simp at h
  | _ :: _, [], h, _ => by simp at h

theorem matMap_done {junk : α} {sch : Nat → List Nat} {f : α → Nat → α} {same : Bool} {m out r : Mat α} (hm : m.WF) (ho : out.WF)
    (h1 : m.size1 = out.size1) (h2 : m.cols = out.cols) (hs : same = true → m = out) (h : matMap junk sch f same m out = .done r) :
    r = matMapped f m := by
  unfold matMap at h
  unfold matMapped
  have h1' : m.rows.length = out.rows.length := h1
  split at h
  · rename_i hle
    rw [if_pos hle]
    rw [Run.bind_eq_done] at h
    obtain ⟨x, hx, h⟩ := h
    injection h with h
    rw [← h, matRows_done (sameShape_of h1' (fun a ha b hb => by rw [hm a ha, ho b hb, h2])) hx]
    cases m; cases out; simp_all
  · rename_i hle
    rw [if_neg hle]
    rw [Run.bind_eq_done] at h
    obtain ⟨x, hx, h⟩ := h
    injection h with h
    have := matCols_done (c := m.cols) (by omega) h1' hm (by rw [h2]; exact ho) (fun e => by rw [hs e]) hx
    rw [← h]
    have hx' : x = m.rows.mapIdx (fun i row => row.map (fun x => f x i)) := by
      apply List.ext_getElem?
      intro i
      rcases Nat.lt_or_ge i m.rows.length with hi | hi
      · have hi2 : i < out.rows.length := by omega
        rw [this.2 i _ _ (List.getElem?_eq_getElem hi) (List.getElem?_eq_getElem hi2)]
        simp [List.getElem?_mapIdx, List.getElem?_eq_getElem hi]
      · rw [List.getElem?_eq_none (by omega), List.getElem?_eq_none (by simpa using hi)]
    rw [hx', h2]

theorem matMap_fair {junk : α} {sch : Nat → List Nat} {f : α → Nat → α} {same : Bool} {m out : Mat α} (hm : m.WF) (ho : out.WF)
    (h1 : m.size1 = out.size1) (h2 : m.cols = out.cols) (hc : ∀ (k i : Nat), i < max m.size1 m.cols → 2 ≤ (sch k).count i) :
    ∃ r, matMap junk sch f same m out = .done r := by
  unfold matMap
  have h1' : m.rows.length = out.rows.length := h1
  split
  · obtain ⟨r, hr⟩ := matRows_fair (k := 0) (junk := junk) (f := f) (same := same) (c := m.cols) (fun k i hi => hc k i (by omega))
      (sameShape_of h1' (fun a ha b hb => by rw [hm a ha, ho b hb, h2])) hm
    rw [hr]
    exact ⟨_, rfl⟩
  · obtain ⟨r, hr⟩ := matCols_fair (n := m.cols) (j := 0) (junk := junk) (f := f) (same := same) (rws := m.size1) (fun k i hi => hc k i (by omega))
      (rfl : m.rows.length = m.size1) (by rw [← h1']; rfl : out.rows.length = m.size1)
    rw [hr]
    exact ⟨_, rfl⟩

end Apop.Map
