import Verif.Base.C
import Mathlib.Algebra.BigOperators.Group.List.Basic
import Mathlib.Algebra.Order.Group.Multiset
import Mathlib.Data.Multiset.UnionInter
import Mathlib.Tactic.Abel

/-!
# C215: the memory of name lists

Blocks are numbers; the heap knows which are live. `malloc` gives a number not given before; `realloc` may move the block or leave it. Using or freeing a block that is not live is undefined. -/

namespace Apop.NameMem

/-! ## The heap -/

/-- The blocks given so far are those below `next`. -/
structure Heap where
  next : ℕ
  live : Multiset ℕ

/-- `malloc`. -/
def Heap.malloc (h : Heap) : ℕ × Heap := (h.next, ⟨h.next + 1, h.next ::ₘ h.live⟩)

/-- `free`; of NULL it does nothing. -/
def Heap.free (h : Heap) : Option ℕ → Res Heap
  | none => .ok h
  | some b => if b ∈ h.live then .ok ⟨h.next, h.live.erase b⟩ else .ub

/-- `realloc`, moving the block or not; of NULL it allocates. -/
def Heap.realloc (h : Heap) (move : Bool) : Option ℕ → Res (ℕ × Heap)
  | none => .ok h.malloc
  | some b => if b ∈ h.live then .ok (if move then Heap.malloc ⟨h.next, h.live.erase b⟩ else (b, h)) else .ub

/-! ## The models -/

/-- One of the lists `row`, `text`, `col`: the strings, the array that points to them and the array of hashes, apop.m4.h:61-69. -/
structure Lst where
  strs : List ℕ
  arr : Option ℕ
  hash : Option ℕ

/-- `apop_name`, apop.m4.h:61-69: the block it is in itself and the blocks it points to. -/
structure NL where
  self : ℕ
  title : Option ℕ
  vector : Option ℕ
  row : Lst
  text : Lst
  col : Lst

/-- The type given to `apop_name_add`; anything but `h`, `v`, `r`, `t` is a column name. -/
inductive Kind | h | v | r | t | c
  deriving DecidableEq

/-- The three branches for the lists in `apop_name_add`, apop_name.m4.c:63-91: the array, a string, the array of hashes. -/
def Lst.add (h : Heap) (l : Lst) (m1 m2 : Bool) : Res (Heap × Lst) := do
  let a ← h.realloc m1 l.arr
  let s := a.2.malloc
  let k ← s.2.realloc m2 l.hash
  .ok (k.2, ⟨l.strs ++ [s.1], some a.1, some k.1⟩)

/-- `apop_name_add`, apop_name.m4.c:49-91; `m1`, `m2`: whether the two calls of `realloc` move the block. -/
def NL.add (h : Heap) (n : NL) (k : Kind) (m1 m2 : Bool) : Res (Heap × NL) :=
  if n.self ∈ h.live then
    match k with
    | .h => do
      let h ← h.free n.title
      .ok (h.malloc.2, { n with title := some h.malloc.1 })
    | .v => do
      let a ← h.realloc m1 n.vector
      .ok (a.2, { n with vector := some a.1 })
    | .r => do
      let a ← n.row.add h m1 m2
      .ok (a.1, { n with row := a.2 })
    | .t => do
      let a ← n.text.add h m1 m2
      .ok (a.1, { n with text := a.2 })
    | .c => do
      let a ← n.col.add h m1 m2
      .ok (a.1, { n with col := a.2 })
  else .ub

/-- `apop_name_alloc`, apop_name.m4.c:23-28. -/
def NL.alloc (h : Heap) : Heap × NL := (h.malloc.2, ⟨h.malloc.1, none, none, ⟨[], none, none⟩, ⟨[], none, none⟩, ⟨[], none, none⟩⟩)

/-- Whether the pointers to the strings can be read: there are none or the array is there. -/
def Lst.readable (h : Heap) (l : Lst) : Bool := l.strs.isEmpty || match l.arr with
  | none => false
  | some a => decide (a ∈ h.live)

/-- Freeing one after the other. -/
def freeAll (h : Heap) : List (Option ℕ) → Res Heap
  | [] => .ok h
  | b :: bs => do
    let h ← h.free b
    freeAll h bs

/-- `apop_name_free`, apop_name.m4.c:128-137: the strings, the vector's name, the arrays, the list itself. -/
def NL.free (h : Heap) (n : NL) : Res Heap :=
  if n.self ∈ h.live ∧ n.col.readable h ∧ n.text.readable h ∧ n.row.readable h then
    freeAll h (n.col.strs.map some ++ (n.text.strs.map some ++ (n.row.strs.map some ++
      [n.vector, n.col.arr, n.col.hash, n.text.arr, n.text.hash, n.row.arr, n.row.hash, some n.self])))
  else .ub

/-- The loops of `apop_name_stack`: `j` names added; `m` says which calls of `realloc` move. -/
def NL.addMany (h : Heap) (n : NL) (k : Kind) (m : ℕ → Bool) : ℕ → Res (Heap × NL)
  | 0 => .ok (h, n)
  | j + 1 => do
    let a ← NL.addMany h n k m j
    a.2.add a.1 k (m (2 * j)) (m (2 * j + 1))

/-- How many names of a type a list has. -/
def NL.count (n : NL) : Kind → ℕ
  | .h => 0
  | .v => n.vector.toList.length
  | .r => n.row.strs.length
  | .t => n.text.strs.length
  | .c => n.col.strs.length

/-- `apop_name_stack`, apop_name.m4.c:151-174: the names of type `ka` of `s` put at the end of those of type `k1` of `n`; the vector's name always as that. That `s` can be read is tested at the start only: the loop frees nothing but `n`'s own blocks, and puts them in place again. (With `ka` a title, a notice.) -/
def NL.stack (h : Heap) (n s : NL) (k1 ka : Kind) (m : ℕ → Bool) : Res (Heap × NL) :=
  if s.self ∈ h.live ∧ s.col.readable h ∧ s.text.readable h ∧ s.row.readable h then
    NL.addMany h n (if ka = .v then .v else k1) m (s.count ka)
  else .ub

/-- `apop_name_copy`, apop_name.m4.c:190-198: the title is printed into a new block, "(null)" if there is none. -/
def NL.copy (h : Heap) (s : NL) (m : Kind → ℕ → Bool) : Res (Heap × NL) := do
  let a := NL.alloc h
  let a ← NL.stack a.1 a.2 s .v .v (m .v)
  let a ← NL.stack a.1 a.2 s .c .c (m .c)
  let a ← NL.stack a.1 a.2 s .r .r (m .r)
  let a ← NL.stack a.1 a.2 s .t .t (m .t)
  .ok (a.1.malloc.2, { a.2 with title := some a.1.malloc.1 })

/-- What a program does with name lists: allocates one, adds a name to the `i`th it has, stacks names of the `j`th (which may be the same) onto the `i`th, copies the `i`th, frees the `i`th. (A list that it does not have it does nothing with.) -/
inductive Op
  | alloc
  | add (i : ℕ) (k : Kind) (m1 m2 : Bool)
  | stack (i j : ℕ) (k1 ka : Kind) (m : ℕ → Bool)
  | copy (i : ℕ) (m : Kind → ℕ → Bool)
  | free (i : ℕ)

/-- The heap and the lists the program has. -/
structure World where
  heap : Heap
  lists : List NL

/-- One step. The strings given to `apop_name_add` by a program are not the list's own. Stacking a vector's name onto itself gives it its own string: apop_name.m4.c:58-59 reads it after the call of `realloc`, in a freed block or, if that did not move, copying a string onto itself; both are undefined (C03). -/
def step (w : World) : Op → Res World
  | .alloc => .ok ⟨(NL.alloc w.heap).1, w.lists ++ [(NL.alloc w.heap).2]⟩
  | .add i k m1 m2 =>
    match w.lists[i]? with
    | none => .ok w
    | some n => do
      let a ← n.add w.heap k m1 m2
      .ok ⟨a.1, w.lists.set i a.2⟩
  | .stack i j k1 ka m =>
    match w.lists[i]?, w.lists[j]? with
    | some n, some s =>
      if i = j ∧ ka = .v ∧ n.vector.isSome then .ub
      else do
        let a ← NL.stack w.heap n s k1 ka m
        .ok ⟨a.1, w.lists.set i a.2⟩
    | _, _ => .ok w
  | .copy i m =>
    match w.lists[i]? with
    | none => .ok w
    | some s => do
      let a ← NL.copy w.heap s m
      .ok ⟨a.1, w.lists ++ [a.2]⟩
  | .free i =>
    match w.lists[i]? with
    | none => .ok w
    | some n => do
      let h ← n.free w.heap
      .ok ⟨h, w.lists.eraseIdx i⟩

/-- A history. -/
def run (w : World) : List Op → Res World
  | [] => .ok w
  | o :: os => do
    let w ← step w o
    run w os

/-- No list and no block. -/
def start : World := ⟨⟨0, 0⟩, []⟩

/-! ## Specification -/

/-- What a name list has been given: a title, a name of the vector, and how many names of rows, texts and columns. -/
structure Held where
  title : Bool
  vector : Bool
  rows : ℕ
  texts : ℕ
  cols : ℕ

/-- The blocks for `k` names: none if there is no name, else one for each and two arrays. -/
def need (k : ℕ) : ℕ := if k = 0 then 0 else k + 2

/-- The blocks a list needs: itself, title and vector if there, and the names. -/
def Held.blocks (x : Held) : ℕ := 1 + x.title.toNat + x.vector.toNat + need x.rows + need x.texts + need x.cols

/-- A name is added. -/
def Held.add (x : Held) : Kind → Held
  | .h => { x with title := true }
  | .v => { x with vector := true }
  | .r => { x with rows := x.rows + 1 }
  | .t => { x with texts := x.texts + 1 }
  | .c => { x with cols := x.cols + 1 }

/-- How many names of a type there are. -/
def Held.count (x : Held) : Kind → ℕ
  | .h => 0
  | .v => x.vector.toNat
  | .r => x.rows
  | .t => x.texts
  | .c => x.cols

/-- The names of type `ka` of `y` are added as type `k1`, a vector's name as that. -/
def Held.stack (x y : Held) (k1 ka : Kind) : Held := (Held.add · (if ka = .v then .v else k1))^[y.count ka] x

/-- The lists a program has after a step, and how many lists with a title it has freed. -/
def Want (x : List Held × ℕ) : Op → List Held × ℕ
  | .alloc => (x.1 ++ [⟨false, false, 0, 0, 0⟩], x.2)
  | .add i k _ _ => (x.1.modify i (·.add k), x.2)
  | .stack i j k1 ka _ => (match x.1[j]? with
    | some y => x.1.modify i (·.stack y k1 ka)
    | none => x.1, x.2)
  | .copy i _ => (x.1 ++ (x.1[i]?.map fun y => { y with title := true }).toList, x.2)
  | .free i => (x.1.eraseIdx i, x.2 + (x.1[i]?.map (·.title.toNat)).getD 0)

/-- After a history. -/
def want (ops : List Op) : List Held × ℕ := ops.foldl Want ([], 0)

/-! ## Proofs -/

/-- The blocks of a list. -/
def Lst.own (l : Lst) : Multiset ℕ := l.strs + (l.arr.toList + l.hash.toList : Multiset ℕ)

/-- All blocks of a name list. -/
def NL.own (n : NL) : Multiset ℕ := {n.self} + n.title.toList + n.vector.toList + n.row.own + n.text.own + n.col.own

/-- The arrays are there exactly if there are names. -/
def Lst.Wf (l : Lst) : Prop := l.arr.isSome = !l.strs.isEmpty ∧ l.hash.isSome = !l.strs.isEmpty

/-- So for all three. -/
def NL.Wf (n : NL) : Prop := n.row.Wf ∧ n.text.Wf ∧ n.col.Wf

/-- Not the vector's name of a list stacked onto itself. -/
def Apart : Op → Prop
  | .stack i j _ ka _ => ¬(i = j ∧ ka = .v)
  | _ => True

/-- A step that puts a title nowhere: no name added or stacked as a title, and no copy. -/
def NoTitle : Op → Prop
  | .add _ k _ _ => k ≠ .h
  | .stack _ _ k1 _ _ => k1 ≠ .h
  | .copy _ _ => False
  | _ => True

/-- What the list holds. -/
def NL.held (n : NL) : Held := ⟨n.title.isSome, n.vector.isSome, n.row.strs.length, n.text.strs.length, n.col.strs.length⟩

/-- The live blocks are those owned, each once. -/
def Inv (h : Heap) (own : Multiset ℕ) : Prop := h.live = own ∧ own.Nodup ∧ ∀ b ∈ own, b < h.next

theorem malloc_inv {h : Heap} {own : Multiset ℕ} (hi : Inv h own) : Inv h.malloc.2 ({h.malloc.1} + own) := by
  obtain ⟨a, b, c⟩ := hi
  refine ⟨by simp [Heap.malloc, a], ?_, ?_⟩
  · rw [Multiset.singleton_add, Multiset.nodup_cons]
    exact ⟨fun hm => absurd (c _ hm) (by simp [Heap.malloc]), b⟩
  · intro x hx
    rw [Multiset.singleton_add, Multiset.mem_cons] at hx
    rcases hx with hx | hx
    · simp [hx, Heap.malloc]
    · have := c x hx
      simp only [Heap.malloc]
      omega

theorem free_inv {h : Heap} {o : Option ℕ} {own : Multiset ℕ} (hi : Inv h ((o.toList : Multiset ℕ) + own)) : ∃ h', h.free o = .ok h' ∧ Inv h' own := by
  cases o with
  | none => exact ⟨h, rfl, by simpa using hi⟩
  | some b =>
    obtain ⟨a, n, c⟩ := hi
    have e : h.live = b ::ₘ own := by rw [a]; simp
    have n' : (b ::ₘ own).Nodup := by rw [← e, a]; exact n
    refine ⟨⟨h.next, own⟩, ?_, rfl, (Multiset.nodup_cons.1 n').2, fun x hx => c x (Multiset.mem_add.2 (Or.inr hx))⟩
    rw [Heap.free, if_pos (by simp [e]), e, Multiset.erase_cons_head]

theorem realloc_inv {h : Heap} {o : Option ℕ} {own : Multiset ℕ} (m : Bool) (hi : Inv h ((o.toList : Multiset ℕ) + own)) : ∃ a, h.realloc m o = .ok a ∧ Inv a.2 ({a.1} + own) := by
  cases o with
  | none => exact ⟨h.malloc, rfl, malloc_inv (by simpa using hi)⟩
  | some b =>
    have hb : b ∈ h.live := by rw [hi.1]; simp
    obtain ⟨h', e, hi'⟩ := free_inv hi
    rw [Heap.free, if_pos hb] at e
    cases m with
    | false => exact ⟨(b, h), by simp [Heap.realloc, hb], by simpa using hi⟩
    | true =>
      refine ⟨h'.malloc, ?_, malloc_inv hi'⟩
      simp only [Res.ok.injEq] at e
      simp [Heap.realloc, hb, ← e]

theorem lst_add {h : Heap} {l : Lst} {own : Multiset ℕ} (m1 m2 : Bool) (hi : Inv h (l.own + own)) :
    ∃ a, l.add h m1 m2 = .ok a ∧ Inv a.1 (a.2.own + own) ∧ a.2.Wf ∧ a.2.strs.length = l.strs.length + 1 := by
  have e1 : l.own + own = (l.arr.toList : Multiset ℕ) + (l.strs + l.hash.toList + own) := by unfold Lst.own; abel
  rw [e1] at hi
  obtain ⟨a, ea, ia⟩ := realloc_inv m1 hi
  have is := malloc_inv ia
  have e2 : {a.2.malloc.1} + ({a.1} + ((l.strs : Multiset ℕ) + l.hash.toList + own)) = (l.hash.toList : Multiset ℕ) + ({a.2.malloc.1} + {a.1} + l.strs + own) := by abel
  rw [e2] at is
  obtain ⟨k, ek, ik⟩ := realloc_inv m2 is
  refine ⟨(k.2, ⟨l.strs ++ [a.2.malloc.1], some a.1, some k.1⟩), ?_, ?_, ?_, ?_⟩
  · simp only [Lst.add, ea, Res.bind_ok, ek]
  · have : (⟨l.strs ++ [a.2.malloc.1], some a.1, some k.1⟩ : Lst).own + own = {k.1} + ({a.2.malloc.1} + {a.1} + l.strs + own) := by
      simp only [Lst.own, Option.toList_some, ← Multiset.coe_add, Multiset.coe_singleton]
      abel
    rw [this]
    exact ik
  · simp [Lst.Wf]
  · simp

theorem nl_add {h : Heap} {n : NL} {own : Multiset ℕ} (k : Kind) (m1 m2 : Bool) (hw : n.Wf) (hi : Inv h (n.own + own)) :
    ∃ a, n.add h k m1 m2 = .ok a ∧ Inv a.1 (a.2.own + own) ∧ a.2.Wf ∧ a.2.held = n.held.add k := by
  have hs : n.self ∈ h.live := by rw [hi.1]; simp [NL.own]
  unfold NL.add
  rw [if_pos hs]
  cases k with
  | h =>
    have e : n.own + own = (n.title.toList : Multiset ℕ) + ({n.self} + n.vector.toList + n.row.own + n.text.own + n.col.own + own) := by unfold NL.own; abel
    rw [e] at hi
    obtain ⟨h', ef, i'⟩ := free_inv hi
    refine ⟨(h'.malloc.2, { n with title := some h'.malloc.1 }), by simp only [ef, Res.bind_ok], ?_, hw, rfl⟩
    have := malloc_inv i'
    simp only [NL.own, Option.toList_some, Multiset.coe_singleton]
    convert this using 1
    abel
  | v =>
    have e : n.own + own = (n.vector.toList : Multiset ℕ) + ({n.self} + n.title.toList + n.row.own + n.text.own + n.col.own + own) := by unfold NL.own; abel
    rw [e] at hi
    obtain ⟨a, ef, i'⟩ := realloc_inv m1 hi
    refine ⟨(a.2, { n with vector := some a.1 }), by simp only [ef, Res.bind_ok], ?_, hw, rfl⟩
    simp only [NL.own, Option.toList_some, Multiset.coe_singleton]
    convert i' using 1
    abel
  | r =>
    have e : n.own + own = n.row.own + ({n.self} + n.title.toList + n.vector.toList + n.text.own + n.col.own + own) := by unfold NL.own; abel
    rw [e] at hi
    obtain ⟨a, ef, i', w', l'⟩ := lst_add m1 m2 hi
    refine ⟨(a.1, { n with row := a.2 }), by simp only [ef, Res.bind_ok], ?_, ⟨w', hw.2.1, hw.2.2⟩, by simp [NL.held, Held.add, l']⟩
    simp only [NL.own]
    convert i' using 1
    abel
  | t =>
    have e : n.own + own = n.text.own + ({n.self} + n.title.toList + n.vector.toList + n.row.own + n.col.own + own) := by unfold NL.own; abel
    rw [e] at hi
    obtain ⟨a, ef, i', w', l'⟩ := lst_add m1 m2 hi
    refine ⟨(a.1, { n with text := a.2 }), by simp only [ef, Res.bind_ok], ?_, ⟨hw.1, w', hw.2.2⟩, by simp [NL.held, Held.add, l']⟩
    simp only [NL.own]
    convert i' using 1
    abel
  | c =>
    have e : n.own + own = n.col.own + ({n.self} + n.title.toList + n.vector.toList + n.row.own + n.text.own + own) := by unfold NL.own; abel
    rw [e] at hi
    obtain ⟨a, ef, i', w', l'⟩ := lst_add m1 m2 hi
    refine ⟨(a.1, { n with col := a.2 }), by simp only [ef, Res.bind_ok], ?_, ⟨hw.1, hw.2.1, w'⟩, by simp [NL.held, Held.add, l']⟩
    simp only [NL.own]
    convert i' using 1
    abel

theorem nl_addMany {h : Heap} {n : NL} {own : Multiset ℕ} (k : Kind) (m : ℕ → Bool) (hw : n.Wf) (hi : Inv h (n.own + own)) (j : ℕ) :
    ∃ a, n.addMany h k m j = .ok a ∧ Inv a.1 (a.2.own + own) ∧ a.2.Wf ∧ a.2.held = (Held.add · k)^[j] n.held := by
  induction j with
  | zero => exact ⟨(h, n), rfl, hi, hw, rfl⟩
  | succ j ih =>
    obtain ⟨a, e, i, w, c⟩ := ih
    obtain ⟨a', e', i', w', c'⟩ := nl_add k (m (2 * j)) (m (2 * j + 1)) w i
    exact ⟨a', by simp only [NL.addMany, e, Res.bind_ok, e'], i', w', by rw [c', c, Function.iterate_succ_apply']⟩

/-- The blocks of pointers some of which are NULL. -/
def those (bs : List (Option ℕ)) : Multiset ℕ := (bs.map fun o => (o.toList : Multiset ℕ)).sum

theorem freeAll_inv (bs : List (Option ℕ)) {h : Heap} {own : Multiset ℕ} (hi : Inv h (those bs + own)) : ∃ h', freeAll h bs = .ok h' ∧ Inv h' own := by
  induction bs generalizing h with
  | nil => exact ⟨h, rfl, by simpa [those] using hi⟩
  | cons b bs ih =>
    have e : those (b :: bs) + own = (b.toList : Multiset ℕ) + (those bs + own) := by simp [those, add_assoc]
    rw [e] at hi
    obtain ⟨h', ef, i'⟩ := free_inv hi
    obtain ⟨h'', e'', i''⟩ := ih i'
    exact ⟨h'', by simp only [freeAll, ef, Res.bind_ok, e''], i''⟩

theorem those_map (l : List ℕ) : those (l.map some) = l := by
  induction l with
  | nil => rfl
  | cons a l ih =>
    have : those ((a :: l).map some) = {a} + those (l.map some) := by simp [those]
    rw [this, ih]
    simp

theorem those_append (a b : List (Option ℕ)) : those (a ++ b) = those a + those b := by simp [those]

theorem readable_of {h : Heap} {l : Lst} (hw : l.Wf) (ha : ∀ b ∈ l.own, b ∈ h.live) : l.readable h = true := by
  obtain ⟨s, a, k⟩ := l
  cases a with
  | none => have := hw.1; simp [Lst.readable] at this ⊢; exact this
  | some a => simp [Lst.readable, ha a (by simp [Lst.own])]

theorem count_held (s : NL) (ka : Kind) : s.count ka = s.held.count ka := by
  cases ka <;> try rfl
  cases h : s.vector <;> simp [NL.count, NL.held, Held.count, h]

theorem nl_stack {h : Heap} {n s : NL} {own : Multiset ℕ} (k1 ka : Kind) (m : ℕ → Bool) (hw : n.Wf) (hs : s.Wf) (hi : Inv h (n.own + own)) (hl : ∀ b ∈ s.own, b ∈ n.own + own) :
    ∃ a, NL.stack h n s k1 ka m = .ok a ∧ Inv a.1 (a.2.own + own) ∧ a.2.Wf ∧ a.2.held = n.held.stack s.held k1 ka := by
  have hl' : ∀ b ∈ s.own, b ∈ h.live := fun b hb => by rw [hi.1]; exact hl b hb
  unfold NL.stack
  rw [if_pos ⟨hl' _ (by simp [NL.own]), readable_of hs.2.2 fun b hb => hl' b (by simp [NL.own, hb]),
    readable_of hs.2.1 fun b hb => hl' b (by simp [NL.own, hb]), readable_of hs.1 fun b hb => hl' b (by simp [NL.own, hb])⟩]
  rw [Held.stack, ← count_held]
  exact nl_addMany _ m hw hi _

theorem alloc_inv {h : Heap} {own : Multiset ℕ} (hi : Inv h own) : Inv (NL.alloc h).1 ((NL.alloc h).2.own + own) := by
  have e1 : (NL.alloc h).2.own = {h.malloc.1} := by simp [NL.alloc, NL.own, Lst.own]
  rw [e1]
  exact malloc_inv hi

theorem iter_r (j : ℕ) (x : Held) : (Held.add · .r)^[j] x = { x with rows := x.rows + j } := by
  induction j with
  | zero => rfl
  | succ j ih => rw [Function.iterate_succ_apply', ih]; rfl

theorem iter_t (j : ℕ) (x : Held) : (Held.add · .t)^[j] x = { x with texts := x.texts + j } := by
  induction j with
  | zero => rfl
  | succ j ih => rw [Function.iterate_succ_apply', ih]; rfl

theorem iter_c (j : ℕ) (x : Held) : (Held.add · .c)^[j] x = { x with cols := x.cols + j } := by
  induction j with
  | zero => rfl
  | succ j ih => rw [Function.iterate_succ_apply', ih]; rfl

theorem stack_r (x y : Held) : x.stack y .r .r = { x with rows := x.rows + y.rows } := iter_r y.rows x

theorem stack_t (x y : Held) : x.stack y .t .t = { x with texts := x.texts + y.texts } := iter_t y.texts x

theorem stack_c (x y : Held) : x.stack y .c .c = { x with cols := x.cols + y.cols } := iter_c y.cols x

theorem stack_v (x y : Held) : x.stack y .v .v = { x with vector := x.vector || y.vector } := by
  obtain ⟨t, v, a, b, c⟩ := y
  cases v
  · simp [Held.stack, Held.count]
  · simp [Held.stack, Held.count, Held.add]

theorem nl_copy {h : Heap} {s : NL} {own : Multiset ℕ} (m : Kind → ℕ → Bool) (hs : s.Wf) (hi : Inv h own) (hl : ∀ b ∈ s.own, b ∈ own) :
    ∃ a, NL.copy h s m = .ok a ∧ Inv a.1 (a.2.own + own) ∧ a.2.Wf ∧ a.2.held = { s.held with title := true } := by
  have hin : ∀ (n : NL), ∀ b ∈ s.own, b ∈ n.own + own := fun n b hb => Multiset.mem_add.2 (Or.inr (hl b hb))
  have w0 : (NL.alloc h).2.Wf := by simp [NL.alloc, NL.Wf, Lst.Wf]
  obtain ⟨a, ea, ia, wa, ca⟩ := nl_stack .v .v (m .v) w0 hs (alloc_inv hi) (hin _)
  obtain ⟨b, eb, ib, wb, cb⟩ := nl_stack .c .c (m .c) wa hs ia (hin _)
  obtain ⟨c, ec, ic, wc, cc⟩ := nl_stack .r .r (m .r) wb hs ib (hin _)
  obtain ⟨d, ed, id', wd, cd⟩ := nl_stack .t .t (m .t) wc hs ic (hin _)
  have hd : d.2.held = { s.held with title := false } := by
    rw [cd, cc, cb, ca]
    have e0 : (NL.alloc h).2.held = ⟨false, false, 0, 0, 0⟩ := rfl
    rw [e0]
    obtain ⟨t, v, x, y, z⟩ := s.held
    rw [stack_v, stack_c, stack_r, stack_t]
    simp
  have ht : d.2.title = none := by
    have := congrArg Held.title hd
    simpa [NL.held] using this
  refine ⟨(d.1.malloc.2, { d.2 with title := some d.1.malloc.1 }), by simp only [NL.copy, ea, eb, ec, ed, Res.bind_ok], ?_, wd, ?_⟩
  · have := malloc_inv id'
    have e : ({ d.2 with title := some d.1.malloc.1 } : NL).own + own = {d.1.malloc.1} + (d.2.own + own) := by
      simp only [NL.own, ht, Option.toList_some, Option.toList_none, Multiset.coe_singleton, Multiset.coe_nil]
      abel
    rw [e]
    exact this
  · have : ({ d.2 with title := some d.1.malloc.1 } : NL).held = { d.2.held with title := true } := rfl
    rw [this, hd]

theorem nl_free {h : Heap} {n : NL} {own : Multiset ℕ} (hw : n.Wf) (hi : Inv h (n.own + own)) :
    ∃ h', n.free h = .ok h' ∧ Inv h' ((n.title.toList : Multiset ℕ) + own) := by
  have hl : ∀ b ∈ n.own, b ∈ h.live := fun b hb => by rw [hi.1]; exact Multiset.mem_add.2 (Or.inl hb)
  unfold NL.free
  rw [if_pos ⟨hl _ (by simp [NL.own]), readable_of hw.2.2 fun b hb => hl b (by simp [NL.own, hb]),
    readable_of hw.2.1 fun b hb => hl b (by simp [NL.own, hb]), readable_of hw.1 fun b hb => hl b (by simp [NL.own, hb])⟩]
  apply freeAll_inv
  convert hi using 1
  simp only [those_append, those_map, NL.own, Lst.own]
  simp only [those, List.map_cons, List.map_nil, List.sum_cons, List.sum_nil, Option.toList_some, Multiset.coe_singleton]
  abel

theorem card_opt (o : Option ℕ) : (Multiset.card (o.toList : Multiset ℕ)) = o.isSome.toNat := by cases o <;> rfl

theorem lst_card (l : Lst) (hw : l.Wf) : l.own.card = need l.strs.length := by
  obtain ⟨s, a, k⟩ := l
  obtain ⟨h1, h2⟩ := hw
  simp only at h1 h2
  rw [Lst.own, Multiset.card_add, Multiset.card_add, card_opt, card_opt, Multiset.coe_card]
  simp only [h1, h2]
  cases s with
  | nil => rfl
  | cons x s => simp [need]

theorem nl_card (n : NL) (hw : n.Wf) : n.own.card = n.held.blocks := by
  simp only [NL.own, Multiset.card_add, card_opt, lst_card _ hw.1, lst_card _ hw.2.1, lst_card _ hw.2.2, Multiset.card_singleton]
  rfl

/-- The state of a program: the live blocks are those of its lists and the lost ones. -/
def Good (w : World) (x : List Held × ℕ) : Prop :=
  w.lists.map NL.held = x.1 ∧ (∀ n ∈ w.lists, n.Wf) ∧ ∃ lost : Multiset ℕ, lost.card = x.2 ∧ Inv w.heap ((w.lists.map NL.own).sum + lost)

theorem sum_at {ns : List NL} {i : ℕ} {n : NL} (h : ns[i]? = some n) : (ns.map NL.own).sum = n.own + ((ns.eraseIdx i).map NL.own).sum := by
  obtain ⟨hi, rfl⟩ := List.getElem?_eq_some_iff.1 h
  have := (List.getElem_cons_eraseIdx_perm hi).map NL.own
  rw [← this.sum_eq]
  simp

theorem step_good {w : World} {x : List Held × ℕ} (o : Op) (ho : Apart o) (hg : Good w x) : ∃ w', step w o = .ok w' ∧ Good w' (Want x o) := by
  obtain ⟨hh, hw, lost, hc, hi⟩ := hg
  cases o with
  | alloc =>
    refine ⟨_, rfl, ?_, ?_, lost, hc, ?_⟩
    · simp [Want, ← hh, NL.alloc, NL.held]
    · intro n hn
      rcases List.mem_append.1 hn with hn | hn
      · exact hw n hn
      · rw [List.mem_singleton.1 hn]
        simp [NL.alloc, NL.Wf, Lst.Wf]
    · have := malloc_inv hi
      have e : ((w.lists ++ [(NL.alloc w.heap).2]).map NL.own).sum + lost = {w.heap.malloc.1} + ((w.lists.map NL.own).sum + lost) := by
        have e1 : (NL.alloc w.heap).2.own = {w.heap.malloc.1} := by simp [NL.alloc, NL.own, Lst.own]
        rw [List.map_append, List.sum_append, List.map_cons, List.map_nil, List.sum_cons, List.sum_nil, e1]
        abel
      rw [← e] at this
      exact this
  | add i k m1 m2 =>
    cases e : w.lists[i]? with
    | none =>
      refine ⟨w, by simp only [step, e], ?_, hw, lost, hc, hi⟩
      have hlen : x.1.length ≤ i := by rw [← hh, List.length_map]; exact List.getElem?_eq_none_iff.1 e
      simp only [Want]
      rw [hh, List.modify_eq_self hlen]
    | some n =>
      have hmem : n ∈ w.lists := List.mem_of_getElem? e
      rw [sum_at e, add_assoc] at hi
      obtain ⟨a, ea, ia, wa, ha⟩ := nl_add k m1 m2 (hw n hmem) hi
      obtain ⟨hlt, hn⟩ := List.getElem?_eq_some_iff.1 e
      refine ⟨⟨a.1, w.lists.set i a.2⟩, by simp only [step, e, ea, Res.bind_ok], ?_, ?_, lost, hc, ?_⟩
      · simp only [Want, ← hh]
        rw [List.map_set, ha, List.modify_eq_set_getElem?]
        simp [e]
      · intro n' hn'
        rcases List.mem_or_eq_of_mem_set hn' with hn' | hn'
        · exact hw n' hn'
        · rw [hn']
          exact wa
      · have : (w.lists.set i a.2)[i]? = some a.2 := by simp [hlt]
        rw [sum_at this, List.eraseIdx_set_eq, add_assoc]
        exact ia
  | stack i j k1 ka m =>
    have hx : ∀ l : ℕ, x.1[l]? = (w.lists[l]?).map NL.held := fun l => by rw [← hh, List.getElem?_map]
    cases e : w.lists[i]? with
    | none =>
      refine ⟨w, by simp only [step, e], ?_, hw, lost, hc, hi⟩
      have hlen : x.1.length ≤ i := by rw [← hh, List.length_map]; exact List.getElem?_eq_none_iff.1 e
      simp only [Want]
      cases x.1[j]? with
      | none => exact hh
      | some y => simp only [List.modify_eq_self hlen, hh]
    | some n =>
      cases e2 : w.lists[j]? with
      | none =>
        refine ⟨w, by simp only [step, e, e2], ?_, hw, lost, hc, hi⟩
        simp only [Want, hx, e2, Option.map_none, hh]
      | some s =>
        have hmem : n ∈ w.lists := List.mem_of_getElem? e
        have hsm : s ∈ w.lists := List.mem_of_getElem? e2
        have hl : ∀ b ∈ s.own, b ∈ (w.lists.map NL.own).sum + lost := fun b hb => by
          rw [sum_at e2, add_assoc]
          exact Multiset.mem_add.2 (Or.inl hb)
        rw [sum_at e, add_assoc] at hi hl
        obtain ⟨a, ea, ia, wa, ha⟩ := nl_stack k1 ka m (hw n hmem) (hw s hsm) hi hl
        obtain ⟨hlt, hn⟩ := List.getElem?_eq_some_iff.1 e
        refine ⟨⟨a.1, w.lists.set i a.2⟩, by simp only [step, e, e2, ea, Res.bind_ok]; exact if_neg fun hc => ho ⟨hc.1, hc.2.1⟩, ?_, ?_, lost, hc, ?_⟩
        · simp only [Want, hx, e2, Option.map_some]
          rw [← hh, List.map_set, ha, List.modify_eq_set_getElem?]
          simp [e]
        · intro n' hn'
          rcases List.mem_or_eq_of_mem_set hn' with hn' | hn'
          · exact hw n' hn'
          · rw [hn']
            exact wa
        · have : (w.lists.set i a.2)[i]? = some a.2 := by simp [hlt]
          rw [sum_at this, List.eraseIdx_set_eq, add_assoc]
          exact ia
  | copy i m =>
    have hx : x.1[i]? = (w.lists[i]?).map NL.held := by rw [← hh, List.getElem?_map]
    cases e : w.lists[i]? with
    | none =>
      refine ⟨w, by simp only [step, e], ?_, hw, lost, hc, hi⟩
      simp [Want, hx, e, hh]
    | some s =>
      have hsm : s ∈ w.lists := List.mem_of_getElem? e
      have hl : ∀ b ∈ s.own, b ∈ (w.lists.map NL.own).sum + lost := fun b hb => by
        rw [sum_at e, add_assoc]
        exact Multiset.mem_add.2 (Or.inl hb)
      obtain ⟨a, ea, ia, wa, ha⟩ := nl_copy m (hw s hsm) hi hl
      refine ⟨⟨a.1, w.lists ++ [a.2]⟩, by simp only [step, e, ea, Res.bind_ok], ?_, ?_, lost, hc, ?_⟩
      · simp [Want, hx, e, ← hh, ha]
      · intro n' hn'
        rcases List.mem_append.1 hn' with hn' | hn'
        · exact hw n' hn'
        · rw [List.mem_singleton.1 hn']
          exact wa
      · have e3 : ((w.lists ++ [a.2]).map NL.own).sum + lost = a.2.own + ((w.lists.map NL.own).sum + lost) := by
          rw [List.map_append, List.sum_append, List.map_cons, List.map_nil, List.sum_cons, List.sum_nil]
          abel
        rw [e3]
        exact ia
  | free i =>
    cases e : w.lists[i]? with
    | none =>
      have hlen : x.1.length ≤ i := by rw [← hh, List.length_map]; exact List.getElem?_eq_none_iff.1 e
      refine ⟨w, by simp only [step, e], ?_, hw, lost, ?_, hi⟩
      · simp only [Want]
        rw [hh, List.eraseIdx_of_length_le hlen]
      · simp only [Want]
        rw [List.getElem?_eq_none_iff.2 hlen]
        simpa using hc
    | some n =>
      have hmem : n ∈ w.lists := List.mem_of_getElem? e
      rw [sum_at e, add_assoc] at hi
      obtain ⟨h', ef, i'⟩ := nl_free (hw n hmem) hi
      refine ⟨⟨h', w.lists.eraseIdx i⟩, by simp only [step, e, ef, Res.bind_ok], ?_, fun n' hn' => hw n' (List.mem_of_mem_eraseIdx hn'), n.title.toList + lost, ?_, ?_⟩
      · simp only [Want, ← hh]
        rw [List.eraseIdx_map]
      · simp only [Want, Multiset.card_add, card_opt, hc, ← hh, List.getElem?_map, e]
        simp [NL.held, Nat.add_comm]
      · convert i' using 1
        simp only
        abel

theorem run_good {w : World} {x : List Held × ℕ} (ops : List Op) (ha : ∀ o ∈ ops, Apart o) (hg : Good w x) : ∃ w', run w ops = .ok w' ∧ Good w' (ops.foldl Want x) := by
  induction ops generalizing w x with
  | nil => exact ⟨w, rfl, hg⟩
  | cons o os ih =>
    obtain ⟨w1, e1, g1⟩ := step_good o (ha o (by simp)) hg
    obtain ⟨w2, e2, g2⟩ := ih (fun o h => ha o (by simp [h])) g1
    exact ⟨w2, by simp only [run, e1, Res.bind_ok, e2], g2⟩

theorem good_start : Good start ([], 0) := ⟨rfl, by simp [start], 0, rfl, by simp [Inv, start]⟩

/-- **C215**: whatever a program does with its name lists, but for stacking a vector's name onto itself, and wherever `realloc` puts them, no block is used or freed that is not live; the blocks live are as many as its lists need, and one for each list with a title that it freed. -/
theorem C215_blocks (ops : List Op) (ha : ∀ o ∈ ops, Apart o) : ∃ w, run start ops = .ok w ∧ w.lists.length = (want ops).1.length ∧
    w.heap.live.card = ((want ops).1.map Held.blocks).sum + (want ops).2 := by
  obtain ⟨w, e, hh, hw, lost, hc, hi⟩ := run_good ops ha good_start
  refine ⟨w, e, ?_, ?_⟩
  · have := congrArg List.length hh
    simpa [want] using this
  · rw [hi.1, Multiset.card_add, hc]
    have : ∀ ns : List NL, (∀ n ∈ ns, n.Wf) → (ns.map NL.own).sum.card = ((ns.map NL.held).map Held.blocks).sum := by
      intro ns
      induction ns with
      | nil => intro _; rfl
      | cons n ns ih =>
        intro h
        simp only [List.map_cons, List.sum_cons, Multiset.card_add]
        rw [nl_card n (h n (by simp)), ih fun m hm => h m (by simp [hm])]
    rw [this _ hw, hh]
    rfl

/-- **C215, no sharing**: every block of a list is live, and no block is in two places or two lists. -/
theorem C215_separate (ops : List Op) (ha : ∀ o ∈ ops, Apart o) (w : World) (h : run start ops = .ok w) :
    (∀ n ∈ w.lists, ∀ b ∈ n.own, b ∈ w.heap.live) ∧ (w.lists.map NL.own).sum.Nodup := by
  obtain ⟨w', e, -, -, lost, -, hi⟩ := run_good ops ha good_start
  rw [h] at e
  cases e
  refine ⟨fun n hn b hb => ?_, ?_⟩
  · rw [hi.1, Multiset.mem_add]
    left
    obtain ⟨i, hi'⟩ := List.getElem?_of_mem hn
    rw [sum_at hi', Multiset.mem_add]
    exact Or.inl hb
  · exact Multiset.nodup_of_le (Multiset.le_add_right _ _) hi.2.1

theorem stack_title (x y : Held) (k1 ka : Kind) (hk : k1 ≠ .h) (hx : x.title = false) : (x.stack y k1 ka).title = false := by
  unfold Held.stack
  generalize y.count ka = j
  have hk' : (if ka = .v then Kind.v else k1) ≠ .h := by split <;> simp_all
  induction j with
  | zero => exact hx
  | succ j ih =>
    rw [Function.iterate_succ_apply']
    generalize (if ka = .v then Kind.v else k1) = k at *
    cases k <;> first | exact absurd rfl hk' | exact ih

/-- **C215, freed**: without titles, and without copies, freeing every list leaves no block. -/
theorem C215_all_freed (ops : List Op) (ha : ∀ o ∈ ops, Apart o) (hall : (want ops).1 = []) (hno : ∀ o ∈ ops, NoTitle o) :
    ∃ w, run start ops = .ok w ∧ w.heap.live = 0 := by
  obtain ⟨w, e, -, hc⟩ := C215_blocks ops ha
  refine ⟨w, e, ?_⟩
  have key : ∀ (ops : List Op) (x : List Held × ℕ), (∀ o ∈ ops, NoTitle o) → (∀ y ∈ x.1, y.title = false) → (ops.foldl Want x).2 = x.2 := by
    intro ops
    induction ops with
    | nil => intro x _ _; rfl
    | cons o os ih =>
      intro x ho hx
      have h1 : (Want x o).2 = x.2 ∧ ∀ y ∈ (Want x o).1, y.title = false := by
        cases o with
        | alloc =>
          refine ⟨rfl, fun y hy => ?_⟩
          rcases List.mem_append.1 hy with hy | hy
          · exact hx y hy
          · rw [List.mem_singleton.1 hy]
        | add i k m1 m2 =>
          refine ⟨rfl, fun y hy => ?_⟩
          have hk : k ≠ .h := ho (.add i k m1 m2) (by simp)
          simp only [Want, List.modify_eq_set_getElem?] at hy
          cases e : x.1[i]? with
          | none => simp [e] at hy; exact hx y hy
          | some z =>
            simp only [e] at hy
            have hz := hx z (List.mem_of_getElem? e)
            rcases List.mem_or_eq_of_mem_set (by simpa using hy) with hy | hy
            · exact hx y hy
            · rw [hy]
              cases k <;> first | exact absurd rfl hk | exact hz
        | copy i m => exact absurd (ho (.copy i m) (by simp)) (by simp [NoTitle])
        | stack i j k1 ka m =>
          refine ⟨rfl, fun y hy => ?_⟩
          have hk : k1 ≠ .h := ho (.stack i j k1 ka m) (by simp)
          simp only [Want] at hy
          cases e2 : x.1[j]? with
          | none => rw [e2] at hy; exact hx y hy
          | some z' =>
            simp only [e2, List.modify_eq_set_getElem?] at hy
            cases e : x.1[i]? with
            | none => simp [e] at hy; exact hx y hy
            | some z =>
              simp only [e] at hy
              have hz := hx z (List.mem_of_getElem? e)
              rcases List.mem_or_eq_of_mem_set (by simpa using hy) with hy | hy
              · exact hx y hy
              · rw [hy]
                exact stack_title z z' k1 ka hk hz
        | free i =>
          refine ⟨?_, fun y hy => hx y (List.mem_of_mem_eraseIdx hy)⟩
          simp only [Want]
          cases e : x.1[i]? with
          | none => rfl
          | some z => simp [hx z (List.mem_of_getElem? e)]
      rw [List.foldl_cons, ih _ (fun o ho' => ho o (by simp [ho'])) h1.2, h1.1]
  have := key ops ([], 0) hno (by simp)
  rw [hall] at hc
  rw [← Multiset.card_eq_zero, hc]
  simpa [want] using this

/-- The documentation has `apop_name_free` free the memory used by the structure; the title it leaves. -/
theorem C215_title_refuted : want [.alloc, .add 0 .h false false, .free 0] = ([], 1) ∧
    ∃ w, run start [.alloc, .add 0 .h false false, .free 0] = .ok w ∧ w.lists = [] ∧ w.heap.live.card = 1 := by
  refine ⟨rfl, ?_⟩
  obtain ⟨w, e, hl, hc⟩ := C215_blocks [.alloc, .add 0 .h false false, .free 0] (by simp [Apart])
  exact ⟨w, e, List.length_eq_zero_iff.1 hl, hc⟩

/-- So the copy of a list without a title, whose title is "(null)", leaves one too. -/
theorem C215_copy_refuted (m : Kind → ℕ → Bool) : ∃ w, run start [.alloc, .copy 0 m, .free 0, .free 0] = .ok w ∧ w.lists = [] ∧ w.heap.live.card = 1 := by
  obtain ⟨w, e, hl, hc⟩ := C215_blocks [.alloc, .copy 0 m, .free 0, .free 0] (by simp [Apart])
  exact ⟨w, e, List.length_eq_zero_iff.1 hl, hc⟩

/-- The vector's name of a list stacked onto the list itself is undefined, wherever `realloc` puts it. -/
theorem C215_self_refuted (b c : Bool) (k1 : Kind) (m : ℕ → Bool) : run start [.alloc, .add 0 .v b c, .stack 0 0 k1 .v m] = .ub := by
  simp [run, step, start, NL.alloc, NL.add, Heap.malloc, Heap.realloc]

/-- Histories that meet the hypotheses. -/
example : (want [.alloc, .alloc, .add 0 .r true false, .add 0 .r true true, .add 1 .c false false, .add 0 .v true false, .free 0]).1.map Held.blocks = [4] := rfl

example : (want [.alloc, .alloc, .add 0 .r true false, .add 1 .c false false, .free 0, .free 0]).1 = [] := rfl

example (m : ℕ → Bool) : ∀ o ∈ ([.alloc, .alloc, .add 0 .v true false, .stack 1 0 .c .v m, .stack 0 0 .r .r m] : List Op), Apart o := by simp [Apart]

end Apop.NameMem
