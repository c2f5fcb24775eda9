import Verif.Db.ToData

/-! # Mixed queries: `apop_query_to_mixed_data` (C106)

Each column of the answer goes to a place that a letter gives: a name, the vector, the matrix, the text, the weights. What SQLite does is as in C104. -/

namespace Apop.Db.Mixed
open Apop.Db.ToData

/-- The places a column may go to; `other` is a letter that is none of them, and the NUL. -/
inductive Kind where
  | name | vector | matrix | text | weight | other
  deriving DecidableEq, Repr

/-- What a letter stands for, apop_db_sqlite.c:241-245 and 284-311. -/
def kindOf (c : UInt8) : Kind :=
  if c = 110 ∨ c = 78 then .name
  else if c = 118 ∨ c = 86 then .vector
  else if c = 109 ∨ c = 77 then .matrix
  else if c = 116 ∨ c = 84 then .text
  else if c = 119 ∨ c = 87 then .weight
  else .other

/-- `intypes`, apop_db_sqlite.c:236-245: how many letters there are of a kind. -/
def count (types : CStr) (k : Kind) : Nat := (types.filter fun c => kindOf c = k).length

/-- `in->instring[j]`, apop_db_sqlite.c:283: the letters, then the NUL, then what is not the string's. -/
def typeAt (types : CStr) (j : Nat) : Res Kind :=
  match types[j]? with
  | some c => .ok (kindOf c)
  | none => if j = types.length then .ok .other else .ub

/-- The data set. Cells that were not written are `none`. -/
structure Out (V : Type) where
  names : Names := .alloc
  vector : Option (List (Option V)) := none
  matrix : Option (List (List (Option V))) := none
  text : Option (List (List (Option CStr))) := none
  weights : Option (List (Option V)) := none

variable {V : Type}

/-- `argv[i] ? atof(argv[i]) : GSL_NAN`, apop_db_sqlite.c:291. -/
def num (atof : CStr → V) (nan : V) : Option CStr → V
  | none => nan
  | some s => atof s

/-- `argv[i] ? argv[i] : "NaN"`, apop_db_sqlite.c:285. -/
def txt : Option CStr → CStr
  | none => str "NaN"
  | some s => s

/-- `apop_vector_realloc`, `apop_matrix_realloc` of the same width, and `realloc`: what fits is kept, what is new is not written. -/
def growTo {α : Type} (n : Nat) (fill : α) (l : List α) : List α := l.take n ++ List.replicate (n - l.length) fill

/-- The allocation on the first call, apop_db_sqlite.c:264-273. Simplified: the block for the text, of one row that has not been written, is allocated with the first row. -/
def start (types : CStr) : Out V :=
  { names := .alloc
    vector := if count types .vector = 0 then none else some (List.replicate (count types .vector) none)
    matrix := if count types .matrix = 0 then none else some [List.replicate (count types .matrix) none]
    text := if count types .text = 0 then none else some []
    weights := if count types .weight = 0 then none else some [none] }

/-- `addnames`, apop_db_sqlite.c:274-275. -/
def addNames (n : Names) : Bool := n.col.length + n.text.length + (if n.vector.isSome then 1 else 0) == 0

/-- One more row in the text and the matrix, apop_db_sqlite.c:276-282; `row` is `thisrow`, one more than the row's index. -/
def widen (types : CStr) (row : Nat) (d : Out V) : Out V :=
  { d with
    text := d.text.map fun t => growTo (row - 1) [] t ++ [List.replicate (count types .text) none]
    matrix := d.matrix.map (growTo row (List.replicate (count types .matrix) none)) }

/-- The vector or the weights get their element: `apop_vector_realloc` and a write; there is no vector if it was not allocated. -/
def setLast (row : Nat) (v : V) : Option (List (Option V)) → Res (Option (List (Option V)))
  | none => .ub
  | some l => (wr (growTo row none l) (row - 1) (some v)).map some

/-- A write in a row of the matrix or the text. -/
def setCell {α : Type} (row col : Nat) (v : α) : Option (List (List (Option α))) → Res (Option (List (List (Option α))))
  | none => .ub
  | some m => (rd m (row - 1)).bind fun r => (wr r col (some v)).bind fun r' => (wr m (row - 1) r').map some

/-- The loop over the elements of a row, apop_db_sqlite.c:282-314, from the `j`-th on. -/
def cells (atof : CStr → V) (nan : V) (types : CStr) (add : Bool) (row : Nat) : Nat → Nat → Nat → List (CStr × Option CStr) → Out V → Res (Out V)
  | _, _, _, [], d => .ok d
  | j, mcol, tcol, (c, a) :: as, d =>
    (typeAt types j).bind fun k =>
      match k with
      | .name =>
        let n := (d.names.add (some (txt a)) 'r').1
        cells atof nan types add row (j + 1) mcol tcol as { d with names := if add then (n.add (some c) 'h').1 else n }
      | .vector => (setLast row (num atof nan a) d.vector).bind fun v =>
        cells atof nan types add row (j + 1) mcol tcol as { d with vector := v, names := if add then (d.names.add (some c) 'v').1 else d.names }
      | .matrix => (setCell row mcol (num atof nan a) d.matrix).bind fun m =>
        cells atof nan types add row (j + 1) (mcol + 1) tcol as { d with matrix := m, names := if add then (d.names.add (some c) 'c').1 else d.names }
      | .text => (setCell row tcol (txt a) d.text).bind fun t =>
        cells atof nan types add row (j + 1) mcol (tcol + 1) as { d with text := t, names := if add then (d.names.add (some c) 't').1 else d.names }
      | .weight => (setLast row (num atof nan a) d.weights).bind fun w =>
        cells atof nan types add row (j + 1) mcol tcol as { d with weights := w }
      | .other => cells atof nan types add row (j + 1) mcol tcol as d

/-- `apop_qt`: the data set (NULL is `none`), how many rows there were, and `error_thrown`. -/
structure State (V : Type) where
  d : Option (Out V) := none
  row : Nat := 0
  error : Bool := false

/-- `requested`, apop_db_sqlite.c:315. -/
def requested (types : CStr) : Nat := count types .name + count types .vector + count types .matrix + count types .text + count types .weight

/-- `multiquery_callback`, apop_db_sqlite.c:256-321. -/
def callback (atof : CStr → V) (nan : V) (types : CStr) (cols : List CStr) (s : State V) (argv : List (Option CStr)) : Res (State V) :=
  let d := s.d.getD (start types)
  (cells atof nan types (addNames d.names) (s.row + 1) 0 0 0 (cols.zip argv) (widen types (s.row + 1) d)).bind fun d' =>
    .ok ⟨some d', s.row + 1, argv.length != requested types⟩

/-- The callback on the rows, in order; SQLite stops when the callback returns 1. -/
def run (atof : CStr → V) (nan : V) (types : CStr) (cols : List CStr) : State V → List (List (Option CStr)) → Res (State V)
  | s, [] => .ok s
  | s, r :: rs => (callback atof nan types cols s r).bind fun s' => if s'.error then .ok s' else run atof nan types cols s' rs

/-- The data set that is returned with the letter in its `error`, 0 if there is none. -/
structure Result (V : Type) where
  d : Out V
  error : Option Char

/-- The end of `apop_sqlite_multiquery`, apop_db_sqlite.c:331-334. -/
def finish (err : Bool) (s : State V) : Option (Result V) :=
  if s.error then some ⟨s.d.getD {}, some 'd'⟩
  else if err then some ⟨s.d.getD {}, some 'q'⟩
  else s.d.map (⟨·, none⟩)

/-- `apop_sqlite_multiquery`, apop_db_sqlite.c:323-335, for a list of types and a query that are not NULL; `none` is NULL. -/
def multiquery (atof : CStr → V) (nan : V) (types : CStr) (a : Answer) : Res (Option (Result V)) :=
  (run atof nan types a.cols {} a.rows).bind fun s => .ok (finish a.err s)

/-! ## Specification -/

/-- The elements of a row whose letters are of a kind, in order. -/
def pick {α : Type} (types : CStr) (k : Kind) (row : List α) : List α := ((types.zip row).filter fun x => kindOf x.1 = k).map Prod.snd

/-- All letters are among those of the documentation. -/
def Known (types : CStr) : Prop := ∀ c ∈ types, kindOf c ≠ .other

/-! ## Proofs -/

abbrev Item := UInt8 × CStr × Option CStr

/-- The items of a kind. -/
def sel (k : Kind) (p : List Item) : List Item := p.filter fun x => kindOf x.1 = k

theorem sel_append (k : Kind) (p q : List Item) : sel k (p ++ q) = sel k p ++ sel k q := by simp [sel]

theorem sel_cons_self (x : Item) (q : List Item) : sel (kindOf x.1) (x :: q) = x :: sel (kindOf x.1) q := by simp [sel]

theorem sel_cons_ne (k : Kind) (x : Item) (q : List Item) (h : kindOf x.1 ≠ k) : sel k (x :: q) = sel k q := by simp [sel, h]

/-- The names after an item. -/
def addItem (add : Bool) (n : Names) (x : Item) : Names :=
  match kindOf x.1 with
  | .name => let n := (n.add (some (txt x.2.2)) 'r').1; if add then (n.add (some x.2.1) 'h').1 else n
  | .vector => if add then (n.add (some x.2.1) 'v').1 else n
  | .matrix => if add then (n.add (some x.2.1) 'c').1 else n
  | .text => if add then (n.add (some x.2.1) 't').1 else n
  | .weight => n
  | .other => n

/-- A vector in the middle of a row: what it was, until an element of this row is written. -/
def midVec (f : Option CStr → V) (k : Kind) (done cur : List (Option V)) (p : List Item) : List (Option V) :=
  match (sel k p).getLast? with
  | none => cur
  | some x => done ++ [some (f x.2.2)]

/-- A row of the matrix or text in the middle. -/
def midRow {α : Type} (ex : Kind → Nat) (f : Option CStr → α) (k : Kind) (p q : List Item) : List (Option α) :=
  (sel k p).map (fun x => some (f x.2.2)) ++ List.replicate ((sel k q).length + ex k) none

theorem growTo_set (done cur : List (Option V)) (h : cur.take done.length = done) (v : V) :
    wr (growTo (done.length + 1) none cur) done.length (some v) = .ok (done ++ [some v]) := by
  have hle : done.length ≤ cur.length := by
    have := congrArg List.length h
    simp at this
    omega
  have hlen : (growTo (done.length + 1) none cur).length = done.length + 1 := by simp [growTo]; omega
  rw [wr_of_lt (by omega)]
  congr 1
  apply List.ext_getElem?
  intro i
  rw [List.getElem?_set]
  rcases Nat.lt_trichotomy i done.length with hi | hi | hi
  · rw [if_neg (by omega), List.getElem?_append_left hi, growTo, List.getElem?_append_left (by simp; omega), List.getElem?_take_of_lt (by omega)]
    conv => rhs; rw [← h]
    rw [List.getElem?_take_of_lt hi]
  · subst hi; rw [if_pos rfl, if_pos (by omega)]; simp
  · rw [if_neg (by omega), List.getElem?_eq_none (by omega), List.getElem?_eq_none (by simp; omega)]

theorem setLast_mid (f : Option CStr → V) (k : Kind) (done cur : List (Option V)) (h : cur.take done.length = done) (p : List Item) (x : Item) (hx : kindOf x.1 = k) :
    setLast (done.length + 1) (f x.2.2) (some (midVec f k done cur p)) = .ok (some (midVec f k done cur (p ++ [x]))) := by
  subst hx
  have e : midVec f (kindOf x.1) done cur (p ++ [x]) = done ++ [some (f x.2.2)] := by
    simp [midVec, sel_append, sel]
  rw [setLast, Nat.add_sub_cancel, e, growTo_set]
  · rfl
  · unfold midVec
    split
    · exact h
    · simp

theorem midVec_ne (f : Option CStr → V) (k : Kind) (done cur : List (Option V)) (p : List Item) (x : Item) (hx : kindOf x.1 ≠ k) :
    midVec f k done cur (p ++ [x]) = midVec f k done cur p := by
  simp [midVec, sel_append, sel, hx]

theorem midRow_ne {α : Type} (ex : Kind → Nat) (f : Option CStr → α) (k : Kind) (p q : List Item) (x : Item) (hx : kindOf x.1 ≠ k) :
    midRow ex f k (p ++ [x]) q = midRow ex f k p (x :: q) := by
  simp [midRow, sel_append, sel, hx]

theorem setCell_mid {α : Type} (ex : Kind → Nat) (f : Option CStr → α) (k : Kind) (M : List (List (Option α))) (p q : List Item) (x : Item) (hx : kindOf x.1 = k) :
    setCell (M.length + 1) (sel k p).length (f x.2.2) (some (M ++ [midRow ex f k p (x :: q)])) = .ok (some (M ++ [midRow ex f k (p ++ [x]) q])) := by
  subst hx
  have hr : rd (M ++ [midRow ex f (kindOf x.1) p (x :: q)]) M.length = .ok (midRow ex f (kindOf x.1) p (x :: q)) := by
    rw [rd_eq_ok]; simp
  have hw : wr (midRow ex f (kindOf x.1) p (x :: q)) (sel (kindOf x.1) p).length (some (f x.2.2)) = .ok (midRow ex f (kindOf x.1) (p ++ [x]) q) := by
    rw [wr_of_lt (by simp [midRow, sel_cons_self]; omega)]
    congr 1
    simp only [midRow, sel_cons_self, List.length_cons, Nat.add_right_comm _ 1, List.replicate_succ, sel_append, List.map_append]
    rw [List.set_append_right _ _ (by simp)]
    simp [sel]
  rw [setCell, Nat.add_sub_cancel, hr]
  simp only [Res.bind, hw]
  rw [wr_of_lt (by simp)]
  simp [Res.map]

/-- The parts of the data set before a row: those that are full, and the vectors as they are. -/
structure Base (V : Type) where
  r : Nat
  V0 : List (Option V)
  Vc : List (Option V)
  W0 : List (Option V)
  Wc : List (Option V)
  M : List (List (Option V))
  T : List (List (Option CStr))
  bv : Bool
  bw : Bool
  bm : Bool
  bt : Bool

/-- The data set in the middle of a row: `p` is done, `q` is not. -/
def mid (atof : CStr → V) (nan : V) (ex : Kind → Nat) (b : Base V) (n : Names) (p q : List Item) : Out V :=
  { names := n
    vector := if b.bv then some (midVec (num atof nan) .vector b.V0 b.Vc p) else none
    matrix := if b.bm then some (b.M ++ [midRow ex (num atof nan) .matrix p q]) else none
    text := if b.bt then some (b.T ++ [midRow ex txt .text p q]) else none
    weights := if b.bw then some (midVec (num atof nan) .weight b.W0 b.Wc p) else none }

/-- What holds of the parts before a row of these items. -/
structure Base.Ok (b : Base V) (items : List Item) : Prop where
  v0 : b.bv → b.V0.length = b.r
  vc : b.bv → b.Vc.take b.V0.length = b.V0
  w0 : b.bw → b.W0.length = b.r
  wc : b.bw → b.Wc.take b.W0.length = b.W0
  m : b.bm → b.M.length = b.r
  t : b.bt → b.T.length = b.r
  hv : sel .vector items ≠ [] → b.bv
  hw : sel .weight items ≠ [] → b.bw
  hm : sel .matrix items ≠ [] → b.bm
  ht : sel .text items ≠ [] → b.bt

theorem sel_ne (p q : List Item) (x : Item) (k : Kind) (h : kindOf x.1 = k) : sel k (p ++ x :: q) ≠ [] := by
  subst h; simp [sel_append, sel_cons_self]

theorem cells_spec (atof : CStr → V) (nan : V) (add : Bool) (ex : Kind → Nat) (b : Base V) (ts : CStr) (rest : List (CStr × Option CStr)) : ∀ (q p : List Item) (n : Names), b.Ok (p ++ q) →
    cells atof nan ((p ++ q).map Prod.fst ++ ts) add (b.r + 1) p.length (sel .matrix p).length (sel .text p).length (q.map Prod.snd ++ rest) (mid atof nan ex b n p q)
      = cells atof nan ((p ++ q).map Prod.fst ++ ts) add (b.r + 1) (p ++ q).length (sel .matrix (p ++ q)).length (sel .text (p ++ q)).length rest (mid atof nan ex b (q.foldl (addItem add) n) (p ++ q) []) := by
  intro q
  induction q with
  | nil => intro p n _; simp
  | cons x q ih =>
    intro p n ok
    have happ : p ++ x :: q = (p ++ [x]) ++ q := by simp
    have ih' := ih (p ++ [x]) (addItem add n x) (happ ▸ ok)
    rw [← happ] at ih'
    have hlen : (p ++ [x]).length = p.length + 1 := by simp
    rw [hlen] at ih'
    have ht : typeAt ((p ++ x :: q).map Prod.fst ++ ts) p.length = .ok (kindOf x.1) := by
      simp [typeAt]
    rw [List.foldl_cons, ← ih']
    obtain ⟨c, nm, a⟩ := x
    simp only [List.map_cons (f := Prod.snd), List.cons_append]
    rw [cells, ht]
    simp only [Res.bind]
    have hselm : kindOf c ≠ .matrix → (sel .matrix (p ++ [(c, nm, a)])).length = (sel .matrix p).length := by intro h; simp [sel_append, sel, h]
    have hselt : kindOf c ≠ .text → (sel .text (p ++ [(c, nm, a)])).length = (sel .text p).length := by intro h; simp [sel_append, sel, h]
    cases hk : kindOf c with
    | name =>
      simp only
      rw [hselm (by simp [hk]), hselt (by simp [hk])]
      congr 1
      simp only [mid, addItem, hk]
      rw [midVec_ne _ _ _ _ _ _ (by simp [hk]), midVec_ne _ _ _ _ _ _ (by simp [hk]), midRow_ne _ _ _ _ _ _ (by simp [hk]), midRow_ne _ _ _ _ _ _ (by simp [hk])]
    | vector =>
      have hb := ok.hv (sel_ne p q (c, nm, a) .vector hk)
      have hset := setLast_mid (num atof nan) .vector b.V0 b.Vc (ok.vc hb) p (c, nm, a) hk
      rw [ok.v0 hb] at hset
      simp only at hset ⊢
      have e : (mid atof nan ex b n p ((c, nm, a) :: q)).vector = some (midVec (num atof nan) .vector b.V0 b.Vc p) := by simp [mid, hb]
      rw [e, hset]
      simp only
      rw [hselm (by simp [hk]), hselt (by simp [hk])]
      congr 1
      simp only [mid, addItem, hk, hb, if_true]
      rw [midVec_ne _ .weight _ _ _ _ (by simp [hk]), midRow_ne _ _ _ _ _ _ (by simp [hk]), midRow_ne _ _ _ _ _ _ (by simp [hk])]
    | weight =>
      have hb := ok.hw (sel_ne p q (c, nm, a) .weight hk)
      have hset := setLast_mid (num atof nan) .weight b.W0 b.Wc (ok.wc hb) p (c, nm, a) hk
      rw [ok.w0 hb] at hset
      simp only at hset ⊢
      have e : (mid atof nan ex b n p ((c, nm, a) :: q)).weights = some (midVec (num atof nan) .weight b.W0 b.Wc p) := by simp [mid, hb]
      rw [e, hset]
      simp only
      rw [hselm (by simp [hk]), hselt (by simp [hk])]
      congr 1
      simp only [mid, addItem, hk, hb, if_true]
      rw [midVec_ne _ .vector _ _ _ _ (by simp [hk]), midRow_ne _ _ _ _ _ _ (by simp [hk]), midRow_ne _ _ _ _ _ _ (by simp [hk])]
    | matrix =>
      have hb := ok.hm (sel_ne p q (c, nm, a) .matrix hk)
      have hset := setCell_mid ex (num atof nan) .matrix b.M p q (c, nm, a) hk
      rw [ok.m hb] at hset
      simp only at hset ⊢
      have e : (mid atof nan ex b n p ((c, nm, a) :: q)).matrix = some (b.M ++ [midRow ex (num atof nan) .matrix p ((c, nm, a) :: q)]) := by simp [mid, hb]
      rw [e, hset]
      simp only
      have : (sel .matrix (p ++ [(c, nm, a)])).length = (sel .matrix p).length + 1 := by simp [sel_append, sel, hk]
      rw [this, hselt (by simp [hk])]
      congr 1
      simp only [mid, addItem, hk, hb, if_true]
      rw [midVec_ne _ _ _ _ _ _ (by simp [hk]), midVec_ne _ _ _ _ _ _ (by simp [hk]), midRow_ne _ _ .text _ _ _ (by simp [hk])]
    | text =>
      have hb := ok.ht (sel_ne p q (c, nm, a) .text hk)
      have hset := setCell_mid ex txt .text b.T p q (c, nm, a) hk
      rw [ok.t hb] at hset
      simp only at hset ⊢
      have e : (mid atof nan ex b n p ((c, nm, a) :: q)).text = some (b.T ++ [midRow ex txt .text p ((c, nm, a) :: q)]) := by simp [mid, hb]
      rw [e, hset]
      simp only
      have : (sel .text (p ++ [(c, nm, a)])).length = (sel .text p).length + 1 := by simp [sel_append, sel, hk]
      rw [this, hselm (by simp [hk])]
      congr 1
      simp only [mid, addItem, hk, hb, if_true]
      rw [midVec_ne _ _ _ _ _ _ (by simp [hk]), midVec_ne _ _ _ _ _ _ (by simp [hk]), midRow_ne _ _ .matrix _ _ _ (by simp [hk])]
    | other =>
      simp only
      rw [hselm (by simp [hk]), hselt (by simp [hk])]
      congr 1
      simp only [mid, addItem, hk]
      rw [midVec_ne _ _ _ _ _ _ (by simp [hk]), midVec_ne _ _ _ _ _ _ (by simp [hk]), midRow_ne _ _ _ _ _ _ (by simp [hk]), midRow_ne _ _ _ _ _ _ (by simp [hk])]

/-- The items of a row. -/
def items (types : CStr) (cols : List CStr) (argv : List (Option CStr)) : List Item := types.zip (cols.zip argv)

theorem sel_items (k : Kind) : ∀ (types : CStr) (cols : List CStr) (argv : List (Option CStr)), cols.length = types.length → argv.length = types.length →
    (sel k (items types cols argv)).map (·.2.2) = pick types k argv ∧ (sel k (items types cols argv)).map (·.2.1) = pick types k cols ∧ (sel k (items types cols argv)).length = count types k
  | [], cols, argv, h1, h2 => by simp [items, sel, pick, count]
  | t :: ts, [], argv, h1, h2 => by simp at h1
  | t :: ts, c :: cs, [], h1, h2 => by simp at h2
  | t :: ts, c :: cs, a :: as, h1, h2 => by
    have ih := sel_items k ts cs as (by simpa using h1) (by simpa using h2)
    simp only [items, sel, pick, count, List.zip_cons_cons] at ih ⊢
    by_cases h : kindOf t = k
    · simp [h, ih]
    · simp [h, ih]

theorem items_fst (types : CStr) (cols : List CStr) (argv : List (Option CStr)) (h1 : cols.length = types.length) (h2 : argv.length = types.length) :
    (items types cols argv).map Prod.fst = types := List.map_fst_zip (by simp; omega)

theorem items_snd (types : CStr) (cols : List CStr) (argv : List (Option CStr)) (h1 : cols.length = types.length) (h2 : argv.length = types.length) :
    (items types cols argv).map Prod.snd = cols.zip argv := List.map_snd_zip (by simp; omega)

theorem names_spec (add : Bool) : ∀ (q : List Item) (n : Names),
    (q.foldl (addItem add) n).row = n.row ++ (sel .name q).map (fun x => txt x.2.2) ∧
    (q.foldl (addItem add) n).col = n.col ++ (if add then (sel .matrix q).map (·.2.1) else []) ∧
    (q.foldl (addItem add) n).text = n.text ++ (if add then (sel .text q).map (·.2.1) else []) ∧
    (q.foldl (addItem add) n).vector = (if add then ((sel .vector q).map (·.2.1)).getLast?.or n.vector else n.vector) ∧
    (q.foldl (addItem add) n).title = (if add then ((sel .name q).map (·.2.1)).getLast?.or n.title else n.title) := by
  intro q
  induction q with
  | nil => intro n; simp [sel]
  | cons x q ih =>
    intro n
    obtain ⟨i1, i2, i3, i4, i5⟩ := ih (addItem add n x)
    rw [List.foldl_cons, i1, i2, i3, i4, i5]
    cases hk : kindOf x.1 <;> cases add <;> simp [sel, hk, addItem, Names.add, List.getLast?_cons] <;>
      (try (cases h : (List.filter (fun x => decide (kindOf x.1 = Kind.vector)) q).getLast? <;> simp)) <;>
      (try (cases h : (List.filter (fun x => decide (kindOf x.1 = Kind.name)) q).getLast? <;> simp))

/-- The last element of a kind in a row, as a number. -/
def lastNum (atof : CStr → V) (nan : V) (types : CStr) (k : Kind) (r : List (Option CStr)) : Option V := ((pick types k r).getLast?).map (num atof nan)

/-- The data set after some rows. -/
def full (atof : CStr → V) (nan : V) (types : CStr) (R : List (List (Option CStr))) (n : Names) : Out V :=
  { names := n
    vector := if count types .vector = 0 then none else some (R.map (lastNum atof nan types .vector))
    matrix := if count types .matrix = 0 then none else some (R.map fun r => (pick types .matrix r).map fun x => some (num atof nan x))
    text := if count types .text = 0 then none else some (R.map fun r => (pick types .text r).map fun x => some (txt x))
    weights := if count types .weight = 0 then none else some (R.map (lastNum atof nan types .weight)) }

/-- The parts before a row. -/
def base (atof : CStr → V) (nan : V) (types : CStr) (R : List (List (Option CStr))) : Base V :=
  { r := R.length
    V0 := R.map (lastNum atof nan types .vector)
    Vc := if R = [] then List.replicate (count types .vector) none else R.map (lastNum atof nan types .vector)
    W0 := R.map (lastNum atof nan types .weight)
    Wc := if R = [] then [none] else R.map (lastNum atof nan types .weight)
    M := R.map fun r => (pick types .matrix r).map fun x => some (num atof nan x)
    T := R.map fun r => (pick types .text r).map fun x => some (txt x)
    bv := count types .vector ≠ 0
    bw := count types .weight ≠ 0
    bm := count types .matrix ≠ 0
    bt := count types .text ≠ 0 }

/-- The data set before a row. -/
def before (atof : CStr → V) (nan : V) (types : CStr) (R : List (List (Option CStr))) (n : Names) : Out V :=
  if R = [] then { start types with names := n } else full atof nan types R n

theorem count_append (a b : CStr) (k : Kind) : count (a ++ b) k = count a k + count b k := by simp [count]

theorem growTo_map {α β : Type} (f : α → β) (R : List α) (fill : β) : growTo (R.length + 1) fill (if R = [] then [fill] else R.map f) = R.map f ++ [fill] := by
  by_cases h : R = []
  · subst h; simp [growTo]
  · rw [if_neg h, growTo, List.take_of_length_le (by simp)]; simp

theorem widen_before (atof : CStr → V) (nan : V) (t1 ts : CStr) (R : List (List (Option CStr))) (n : Names) (cols : List CStr) (argv : List (Option CStr)) (h1 : cols.length = t1.length) (h2 : argv.length = t1.length) :
    widen (t1 ++ ts) (R.length + 1) (before atof nan (t1 ++ ts) R n) = mid atof nan (count ts) (base atof nan (t1 ++ ts) R) n [] (items t1 cols argv) := by
  have hm := (sel_items .matrix t1 cols argv h1 h2).2.2
  have ht := (sel_items .text t1 cols argv h1 h2).2.2
  have em : midRow (count ts) (num atof nan) .matrix [] (items t1 cols argv) = List.replicate (count (t1 ++ ts) .matrix) none := by
    simp [midRow, sel, count_append] at hm ⊢; rw [hm]
  have et : midRow (count ts) txt .text [] (items t1 cols argv) = List.replicate (count (t1 ++ ts) .text) none := by
    simp [midRow, sel, count_append] at ht ⊢; rw [ht]
  have g1 := growTo_map (fun r => (pick (t1 ++ ts) .matrix r).map fun x => some (num atof nan x)) R (List.replicate (count (t1 ++ ts) .matrix) none)
  have g2 : growTo R.length [] (R.map fun r => (pick (t1 ++ ts) .text r).map fun x => some (txt x)) = R.map fun r => (pick (t1 ++ ts) .text r).map fun x => some (txt x) := by
    rw [growTo, List.take_of_length_le (by simp)]; simp
  unfold widen before mid
  rw [em, et]
  by_cases h : R = []
  · subst h
    by_cases c1 : count (t1 ++ ts) .vector = 0 <;> by_cases c2 : count (t1 ++ ts) .matrix = 0 <;> by_cases c3 : count (t1 ++ ts) .text = 0 <;> by_cases c4 : count (t1 ++ ts) .weight = 0 <;>
      simp [start, base, midVec, sel, c1, c2, c3, c4, growTo]
  · rw [if_neg h] at g1 ⊢
    by_cases c1 : count (t1 ++ ts) .vector = 0 <;> by_cases c2 : count (t1 ++ ts) .matrix = 0 <;> by_cases c3 : count (t1 ++ ts) .text = 0 <;> by_cases c4 : count (t1 ++ ts) .weight = 0 <;>
      simp [full, base, midVec, sel, c1, c2, c3, c4, g1, g2, h]

theorem base_ok (atof : CStr → V) (nan : V) (t1 ts : CStr) (R : List (List (Option CStr))) (cols : List CStr) (argv : List (Option CStr)) (h1 : cols.length = t1.length) (h2 : argv.length = t1.length) :
    (base atof nan (t1 ++ ts) R).Ok (items t1 cols argv) := by
  have key : ∀ k, sel k (items t1 cols argv) ≠ [] → count (t1 ++ ts) k ≠ 0 := by
    intro k h
    have := (sel_items k t1 cols argv h1 h2).2.2
    have h0 := List.length_pos_iff.2 h
    rw [count_append]; omega
  constructor
  · intro _; simp [base]
  · intro _; by_cases h : R = []
    · simp [base, h]
    · simp only [base, h, if_false, List.length_map]; exact List.take_of_length_le (by simp)
  · intro _; simp [base]
  · intro _; by_cases h : R = []
    · simp [base, h]
    · simp only [base, h, if_false, List.length_map]; exact List.take_of_length_le (by simp)
  · intro _; simp [base]
  · intro _; simp [base]
  · intro h; simpa [base] using key _ h
  · intro h; simpa [base] using key _ h
  · intro h; simpa [base] using key _ h
  · intro h; simpa [base] using key _ h

/-- The names after a row. -/
def namesAfter (n : Names) (types : CStr) (cols : List CStr) (argv : List (Option CStr)) : Names := (items types cols argv).foldl (addItem (addNames n)) n

theorem cells_row (atof : CStr → V) (nan : V) (t1 ts : CStr) (R : List (List (Option CStr))) (n : Names) (c1 c2 : List CStr) (a1 a2 : List (Option CStr)) (h1 : c1.length = t1.length) (h2 : a1.length = t1.length) :
    cells atof nan (t1 ++ ts) (addNames n) (R.length + 1) 0 0 0 ((c1 ++ c2).zip (a1 ++ a2)) (widen (t1 ++ ts) (R.length + 1) (before atof nan (t1 ++ ts) R n)) =
    cells atof nan (t1 ++ ts) (addNames n) (R.length + 1) t1.length (count t1 .matrix) (count t1 .text) (c2.zip a2)
      (mid atof nan (count ts) (base atof nan (t1 ++ ts) R) (namesAfter n t1 c1 a1) (items t1 c1 a1) []) := by
  have hs := cells_spec atof nan (addNames n) (count ts) (base atof nan (t1 ++ ts) R) ts (c2.zip a2) (items t1 c1 a1) [] n (by simpa using base_ok atof nan t1 ts R c1 a1 h1 h2)
  rw [widen_before atof nan t1 ts R n c1 a1 h1 h2, List.zip_append (by omega)]
  simp only [List.nil_append, items_fst t1 c1 a1 h1 h2, items_snd t1 c1 a1 h1 h2, (sel_items .matrix t1 c1 a1 h1 h2).2.2, (sel_items .text t1 c1 a1 h1 h2).2.2] at hs
  have hl : (items t1 c1 a1).length = t1.length := by simp [items]; omega
  rw [hl] at hs
  exact hs

theorem mid_full (atof : CStr → V) (nan : V) (types : CStr) (R : List (List (Option CStr))) (n : Names) (cols : List CStr) (argv : List (Option CStr)) (h1 : cols.length = types.length) (h2 : argv.length = types.length) :
    mid atof nan (count []) (base atof nan types R) n (items types cols argv) [] = full atof nan types (R ++ [argv]) n := by
  have row : ∀ {α : Type} (f : Option CStr → α) (k : Kind), midRow (count []) f k (items types cols argv) [] = (pick types k argv).map fun x => some (f x) := by
    intro α f k
    rw [← (sel_items k types cols argv h1 h2).1]
    simp [midRow, sel, count]
  have vec : ∀ (k : Kind) (v0 vc : List (Option V)), count types k ≠ 0 → midVec (num atof nan) k v0 vc (items types cols argv) = v0 ++ [lastNum atof nan types k argv] := by
    intro k v0 vc hk
    have hne : sel k (items types cols argv) ≠ [] := by
      intro h; rw [← (sel_items k types cols argv h1 h2).2.2, h] at hk; simp at hk
    rw [midVec, List.getLast?_eq_some_getLast hne, lastNum, ← (sel_items k types cols argv h1 h2).1, List.getLast?_map, List.getLast?_eq_some_getLast hne]
    rfl
  unfold mid full
  rw [row, row]
  by_cases c1 : count types .vector = 0 <;> by_cases c4 : count types .weight = 0 <;>
    simp [base, c1, c4] <;> (try rw [vec _ _ _ c1]) <;> (try rw [vec _ _ _ c4]) <;> simp

/-- The names after all rows. -/
structure NamesOk (types : CStr) (cols : List CStr) (R : List (List (Option CStr))) (n : Names) : Prop where
  row : n.row = R.flatMap fun r => (pick types .name r).map txt
  col : n.col = if R = [] then [] else pick types .matrix cols
  text : n.text = if R = [] then [] else pick types .text cols
  vector : n.vector = if R = [] then none else (pick types .vector cols).getLast?
  title : n.title = if R = [] then none else (pick types .name cols).getLast?

theorem namesOk_step (types : CStr) (cols : List CStr) (R : List (List (Option CStr))) (n : Names) (h : NamesOk types cols R n) (argv : List (Option CStr)) (h1 : cols.length = types.length) (h2 : argv.length = types.length) :
    NamesOk types cols (R ++ [argv]) (namesAfter n types cols argv) := by
  obtain ⟨i1, i2, i3, i4, i5⟩ := names_spec (addNames n) (items types cols argv) n
  have s1 := fun k => (sel_items k types cols argv h1 h2).1
  have s2 := fun k => (sel_items k types cols argv h1 h2).2.1
  have e : (sel .name (items types cols argv)).map (fun x => txt x.2.2) = (pick types .name argv).map txt := by
    rw [← s1]; simp
  rw [s2] at i2 i3 i4 i5
  rw [e] at i1
  have hne : R ++ [argv] ≠ [] := by simp
  by_cases hR : R = []
  · have hadd : addNames n = true := by
      have a := h.col; have b := h.text; have c := h.vector
      rw [if_pos hR] at a b c
      simp [addNames, a, b, c]
    rw [hadd] at i2 i3 i4 i5
    constructor
    · rw [namesAfter, i1, h.row]; simp
    · rw [namesAfter, hadd, i2, h.col]; simp [hR]
    · rw [namesAfter, hadd, i3, h.text]; simp [hR]
    · rw [namesAfter, hadd, i4, h.vector]; simp [hR]
    · rw [namesAfter, hadd, i5, h.title]; simp [hR]
  · have a := h.col; have b := h.text; have c := h.vector; have d := h.title
    rw [if_neg hR] at a b c d
    cases hadd : addNames n with
    | true =>
      rw [hadd] at i2 i3 i4 i5
      simp only [addNames, beq_iff_eq] at hadd
      have n1 : pick types .matrix cols = [] := by rw [← a]; exact List.length_eq_zero_iff.1 (by omega)
      have n2 : pick types .text cols = [] := by rw [← b]; exact List.length_eq_zero_iff.1 (by omega)
      have hadd' : addNames n = true := by simp [addNames, hadd]
      constructor
      · rw [namesAfter, i1, h.row]; simp
      · rw [namesAfter, hadd', i2, a]; simp [n1]
      · rw [namesAfter, hadd', i3, b]; simp [n2]
      · rw [namesAfter, hadd', i4, c]; simp
      · rw [namesAfter, hadd', i5, d]; simp
    | false =>
      rw [hadd] at i2 i3 i4 i5
      constructor
      · rw [namesAfter, i1, h.row]; simp
      · rw [namesAfter, hadd, i2, a]; simp
      · rw [namesAfter, hadd, i3, b]; simp
      · rw [namesAfter, hadd, i4, c]; simp
      · rw [namesAfter, hadd, i5, d]; simp

/-- The state after some rows without error. -/
def after (atof : CStr → V) (nan : V) (types : CStr) (R : List (List (Option CStr))) (n : Names) : State V :=
  ⟨if R = [] then none else some (full atof nan types R n), R.length, false⟩

theorem getD_after (atof : CStr → V) (nan : V) (types : CStr) (R : List (List (Option CStr))) (n : Names) (hn : R = [] → n = .alloc) :
    (after atof nan types R n).d.getD (start types) = before atof nan types R n := by
  by_cases h : R = []
  · simp [after, before, h, hn h, start]
  · simp [after, before, h]

theorem callback_full (atof : CStr → V) (nan : V) (types : CStr) (R : List (List (Option CStr))) (n : Names) (hn : R = [] → n = .alloc) (cols : List CStr) (argv : List (Option CStr)) (h1 : cols.length = types.length) (h2 : argv.length = types.length) :
    callback atof nan types cols (after atof nan types R n) argv = .ok ⟨some (full atof nan types (R ++ [argv]) (namesAfter n types cols argv)), R.length + 1, types.length != requested types⟩ := by
  have hrow := cells_row atof nan types [] R n cols [] argv [] h1 h2
  simp only [List.append_nil] at hrow
  have hnm : (before atof nan types R n).names = n := by unfold before; split <;> rfl
  unfold callback
  simp only [getD_after atof nan types R n hn, hnm, h2]
  have hr : (after atof nan types R n).row = R.length := rfl
  rw [hr, hrow]
  simp only [List.zip_nil_right, cells, Res.bind, mid_full atof nan types R _ cols argv h1 h2]

theorem requested_known (types : CStr) (h : Known types) : requested types = types.length := by
  induction types with
  | nil => rfl
  | cons c cs ih =>
    have ih' := ih fun x hx => h x (by simp [hx])
    have hc := h c (by simp)
    simp only [requested, count] at ih' ⊢
    cases hk : kindOf c <;> simp [hk] at hc ⊢ <;> omega

theorem run_full (atof : CStr → V) (nan : V) (types : CStr) (hk : Known types) (cols : List CStr) (h1 : cols.length = types.length) : ∀ (rs R : List (List (Option CStr))) (n : Names), NamesOk types cols R n → (R = [] → n = .alloc) →
    (∀ r ∈ rs, r.length = types.length) → ∃ n', run atof nan types cols (after atof nan types R n) rs = .ok (after atof nan types (R ++ rs) n') ∧ NamesOk types cols (R ++ rs) n' := by
  intro rs
  induction rs with
  | nil => intro R n hn _ _; exact ⟨n, by simp [run], by simpa using hn⟩
  | cons r rs ih =>
    intro R n hn h0 hl
    have hs := namesOk_step types cols R n hn r h1 (hl r (by simp))
    obtain ⟨n', e, ok⟩ := ih (R ++ [r]) _ hs (by simp) (fun x hx => hl x (by simp [hx]))
    refine ⟨n', ?_, by simpa using ok⟩
    rw [run, callback_full atof nan types R n h0 cols r h1 (hl r (by simp)), requested_known types hk]
    have : (⟨some (full atof nan types (R ++ [r]) (namesAfter n types cols r)), R.length + 1, types.length != types.length⟩ : State V) = after atof nan types (R ++ [r]) (namesAfter n types cols r) := by
      simp [after]
    simp only [Res.bind, this]
    rw [if_neg (by simp [after]), e]
    simp

/-! ## The theorems -/

/-- **C106.** For every list of letters among those documented, and every answer with as many columns as letters and no error: without rows the result is NULL; otherwise there is no error, the matrix has in each row the elements whose letter is `m`, in order, as numbers, or NaN for a NULL; the text those whose letter is `t`, with `NaN` for a NULL; the vector and the weights those whose letter is `v` and `w` (the last, if there are more); a part whose letter is not there is not there; the names of rows are those whose letter is `n`, those of columns and text and vector are the answer's; and the title is the name of the column with the names. -/
theorem C106_contents (atof : CStr → V) (nan : V) (types : CStr) (a : Answer) (ok : a.Ok) (he : a.err = false) (hk : Known types) (hc : a.cols.length = types.length) :
    (a.rows = [] → multiquery atof nan types a = .ok none) ∧
    (a.rows ≠ [] → ∃ d, multiquery atof nan types a = .ok (some ⟨d, none⟩) ∧
      d.matrix = (if count types .matrix = 0 then none else some (a.rows.map fun r => (pick types .matrix r).map fun x => some (num atof nan x))) ∧
      d.text = (if count types .text = 0 then none else some (a.rows.map fun r => (pick types .text r).map fun x => some (txt x))) ∧
      d.vector = (if count types .vector = 0 then none else some (a.rows.map fun r => ((pick types .vector r).getLast?).map (num atof nan))) ∧
      d.weights = (if count types .weight = 0 then none else some (a.rows.map fun r => ((pick types .weight r).getLast?).map (num atof nan))) ∧
      d.names.row = (a.rows.flatMap fun r => (pick types .name r).map txt) ∧ d.names.col = pick types .matrix a.cols ∧ d.names.text = pick types .text a.cols ∧
      d.names.vector = (pick types .vector a.cols).getLast? ∧ d.names.title = (pick types .name a.cols).getLast?) := by
  constructor
  · intro h; rw [multiquery, h, he]; rfl
  · intro h
    have h0 : NamesOk types a.cols [] .alloc := ⟨rfl, rfl, rfl, rfl, rfl⟩
    obtain ⟨n, e, hn⟩ := run_full atof nan types hk a.cols hc a.rows [] .alloc h0 (fun _ => rfl) (fun r hr => (ok r hr).trans hc)
    simp only [List.nil_append] at e hn
    refine ⟨full atof nan types a.rows n, ?_, rfl, rfl, rfl, rfl, hn.row, by simpa [h, full] using hn.col, by simpa [h, full] using hn.text, by simpa [h, full] using hn.vector, by simpa [h, full] using hn.title⟩
    have hs : (after atof nan types [] .alloc : State V) = {} := rfl
    rw [multiquery, ← hs, e]
    simp [Res.bind, finish, after, h, he]

/-- **C106 (too many columns) fails.** The documentation says that the columns beyond the letters go to the text. With one more, SQLite is stopped after the first row, the error is `d`, the data set has that row only, as if the last column were not there. -/
theorem C106_one_more_refuted (atof : CStr → V) (nan : V) (types : CStr) (hk : Known types) (cols : List CStr) (h1 : cols.length = types.length) (c : CStr) (argv : List (Option CStr)) (h2 : argv.length = types.length) (x : Option CStr)
    (rest : List (List (Option CStr))) (err : Bool) :
    ∃ d e, multiquery atof nan types ⟨cols ++ [c], (argv ++ [x]) :: rest, err⟩ = .ok (some ⟨d, some 'd'⟩) ∧ multiquery atof nan types ⟨cols, [argv], false⟩ = .ok (some ⟨e, none⟩) ∧ d = e := by
  have h0 : NamesOk types cols [] .alloc := ⟨rfl, rfl, rfl, rfl, rfl⟩
  have hs : (after atof nan types [] .alloc : State V) = {} := rfl
  have hcells := cells_row atof nan types [] [] .alloc cols [c] argv [x] h1 h2
  simp only [List.append_nil, List.length_nil, Nat.zero_add] at hcells
  refine ⟨full atof nan types [argv] (namesAfter .alloc types cols argv), full atof nan types [argv] (namesAfter .alloc types cols argv), ?_, ?_, rfl⟩
  · have hcb : callback atof nan types (cols ++ [c]) {} (argv ++ [x]) = .ok ⟨some (full atof nan types [argv] (namesAfter .alloc types cols argv)), 1, true⟩ := by
      have hg := getD_after atof nan types [] .alloc (fun _ => rfl)
      rw [hs] at hg
      have hnm : (before atof nan types [] .alloc : Out V).names = .alloc := rfl
      unfold callback
      simp only [hg, hnm, Nat.zero_add]
      rw [hcells]
      have ht : typeAt types types.length = .ok .other := by simp [typeAt]
      have hm := mid_full atof nan types [] (namesAfter .alloc types cols argv) cols argv h1 h2
      simp only [List.nil_append] at hm
      simp only [List.zip_cons_cons, List.zip_nil_right, cells, ht, Res.bind, hm, requested_known types hk]
      simp [h2]
    rw [multiquery]
    simp only
    rw [run, hcb]
    simp [Res.bind, finish]
  · rw [multiquery]
    simp only
    rw [run, ← hs, callback_full atof nan types [] .alloc (fun _ => rfl) cols argv h1 h2, requested_known types hk]
    simp [Res.bind, run, finish]

/-- **C106 (many more columns) fails**: with two more columns or more than letters, the code reads past the end of the list of letters. -/
theorem C106_many_more_refuted (atof : CStr → V) (nan : V) (types : CStr) (cols more : List CStr) (h1 : cols.length = types.length) (hm : 2 ≤ more.length) (argv amore : List (Option CStr)) (h2 : argv.length = types.length)
    (hm2 : amore.length = more.length) (rest : List (List (Option CStr))) (err : Bool) :
    multiquery atof nan types ⟨cols ++ more, (argv ++ amore) :: rest, err⟩ = .ub := by
  have hs : (after atof nan types [] .alloc : State V) = {} := rfl
  have hcells := cells_row atof nan types [] [] .alloc cols more argv amore h1 h2
  simp only [List.append_nil, List.length_nil, Nat.zero_add] at hcells
  have hcb : callback atof nan types (cols ++ more) {} (argv ++ amore) = .ub := by
    have hg := getD_after atof nan types [] .alloc (fun _ => rfl)
    rw [hs] at hg
    have hnm : (before atof nan types [] .alloc : Out V).names = .alloc := rfl
    unfold callback
    simp only [hg, hnm, Nat.zero_add]
    rw [hcells]
    match more, amore, hm, hm2 with
    | m1 :: m2 :: ms, a1 :: a2 :: as, _, _ =>
      have ht : typeAt types types.length = .ok .other := by simp [typeAt]
      have ht' : typeAt types (types.length + 1) = .ub := by simp [typeAt]
      simp only [List.zip_cons_cons, cells, ht, ht', Res.bind]
  rw [multiquery]
  simp only
  rw [run, hcb]
  rfl

/-- With fewer columns than letters, the error is `d`, only the first row is read, and the cells of the matrix and of the text beyond it are not written: in particular the text has pointers to nowhere, which freeing the data set would free. -/
theorem C106_fewer (atof : CStr → V) (nan : V) (types more : CStr) (hk : Known (types ++ more)) (hm : more ≠ []) (cols : List CStr) (h1 : cols.length = types.length) (argv : List (Option CStr)) (h2 : argv.length = types.length)
    (rest : List (List (Option CStr))) (err : Bool) :
    ∃ d, multiquery atof nan (types ++ more) ⟨cols, argv :: rest, err⟩ = .ok (some ⟨d, some 'd'⟩) ∧
      d.matrix = (if count (types ++ more) .matrix = 0 then none else some [((pick types .matrix argv).map fun x => some (num atof nan x)) ++ List.replicate (count more .matrix) none]) ∧
      d.text = (if count (types ++ more) .text = 0 then none else some [((pick types .text argv).map fun x => some (txt x)) ++ List.replicate (count more .text) none]) := by
  have hs : (after atof nan (types ++ more) [] .alloc : State V) = {} := rfl
  have hcells := cells_row atof nan types more [] .alloc cols [] argv [] h1 h2
  simp only [List.append_nil, List.length_nil, Nat.zero_add] at hcells
  refine ⟨mid atof nan (count more) (base atof nan (types ++ more) []) (namesAfter .alloc types cols argv) (items types cols argv) [], ?_, ?_, ?_⟩
  · have hcb : callback atof nan (types ++ more) cols {} argv = .ok ⟨some (mid atof nan (count more) (base atof nan (types ++ more) []) (namesAfter .alloc types cols argv) (items types cols argv) []), 1, true⟩ := by
      have hg := getD_after atof nan (types ++ more) [] .alloc (fun _ => rfl)
      rw [hs] at hg
      have hnm : (before atof nan (types ++ more) [] .alloc : Out V).names = .alloc := rfl
      unfold callback
      simp only [hg, hnm, Nat.zero_add]
      rw [hcells]
      have := List.length_pos_iff.2 hm
      simp only [List.zip_nil_right, cells, Res.bind, requested_known _ hk]
      have hb : (argv.length != (types ++ more).length) = true := by simp [h2, hm]
      rw [hb]
    rw [multiquery]
    simp only
    rw [run, hcb]
    simp [Res.bind, finish]
  · have e := (sel_items .matrix types cols argv h1 h2).1
    simp only [mid, base, midRow]
    rw [← e]
    by_cases c : count (types ++ more) .matrix = 0 <;> simp [c, sel]
  · have e := (sel_items .text types cols argv h1 h2).1
    simp only [mid, base, midRow]
    rw [← e]
    by_cases c : count (types ++ more) .text = 0 <;> simp [c, sel]

/-- **C106 (two columns of names) fails**: the message says that all but the last are ignored; both are added, so that the names are no longer those of the rows. -/
theorem C106_two_names_refuted (atof : CStr → V) (nan : V) (x y u v : CStr) :
    ∃ d, multiquery atof nan (str "nn") ⟨[str "a", str "b"], [[some x, some y], [some u, some v]], false⟩ = .ok (some ⟨d, none⟩) ∧ d.names.row = [x, y, u, v] := by
  have hk : kindOf 110 = .name := by decide
  have hn : Known (str "nn") := by
    have : str "nn" = [110, 110] := by decide +kernel
    rw [this]; intro c hc; simp at hc; subst hc; rw [hk]; simp
  have hs : str "nn" = [110, 110] := by decide +kernel
  obtain ⟨d, e, _, _, _, _, hr, _⟩ := (C106_contents atof nan (str "nn") ⟨[str "a", str "b"], [[some x, some y], [some u, some v]], false⟩ (by intro r hr; simp at hr; rcases hr with rfl | rfl <;> rfl) rfl hn (by rw [hs]; rfl)).2 (by simp)
  refine ⟨d, e, ?_⟩
  rw [hr, hs]
  simp [pick, hk, txt]

/-- The hypotheses of `C106_contents` hold of a list with all five letters. -/
example : Known (str "ntvmmW") ∧ Answer.Ok ⟨[str "id", str "w", str "y", str "a", str "b", str "wt"], [[some (str "r"), none, some (str "1"), none, some (str "2"), some (str "3")]], false⟩ ∧
    pick (str "ntvmmW") .matrix [0, 1, 2, 3, 4, 5] = [3, 4] ∧ pick (str "ntvmmW") .weight [0, 1, 2, 3, 4, 5] = [5] := by
  have hs : str "ntvmmW" = [110, 116, 118, 109, 109, 87] := by decide +kernel
  rw [hs]
  refine ⟨?_, ?_, by decide, by decide⟩
  · intro c hc; simp at hc; rcases hc with rfl | rfl | rfl | rfl | rfl <;> decide
  · intro r hr; simp at hr; subst hr; rfl

/-- What an element becomes: NaN, or the string `NaN`, for a NULL; what `atof` reads, or the string itself, otherwise. Unlike in `apop_query_to_data`, the string `NULL` and the NaN string of the options are not special. -/
theorem C106_value (atof : CStr → V) (nan : V) (s : CStr) : num atof nan none = nan ∧ num atof nan (some s) = atof s ∧ txt none = str "NaN" ∧ txt (some s) = s := ⟨rfl, rfl, rfl, rfl⟩

end Apop.Db.Mixed
