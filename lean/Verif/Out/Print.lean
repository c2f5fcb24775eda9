import Verif.Out.Num

/-! # Printing a data set: `apop_data_print_core`

Bytes written to the output, page by page. The delimiter is `apop_opts.output_delimiter`. -/

namespace Apop.Out

/-- A matrix or the text of a data set: the width and the rows. -/
structure Grid (α : Type) where
  w : Nat
  rows : List (List α)

/-- Every row has the width. -/
def Grid.Ok {α : Type} (g : Grid α) : Prop := ∀ r ∈ g.rows, r.length = g.w

/-- A page, as far as it is printed: the parts and the names. An absent `apop_name` prints like an empty one. -/
structure PSet where
  title : Option CStr := none
  vname : Option CStr := none
  cols : List CStr := []
  texts : List CStr := []
  rownames : List CStr := []
  vec : Option (List Num) := none
  mat : Option (Grid Num) := none
  text : Option (Grid CStr) := none
  weights : Option (List Num) := none

/-- One piece of output after another. -/
def cat : List (Res CStr) → Res CStr
  | [] => .ok []
  | x :: xs => x.bind fun a => (cat xs).bind fun b => .ok (a ++ b)

/-- A loop that writes a delimiter after each item but the last, as apop_output.m4.c:265-269, 277-281, 288-297, 302-305. -/
def sepBy (d : CStr) : List (Res CStr) → List (Res CStr)
  | [] => []
  | [x] => [x]
  | x :: y :: r => x :: .ok d :: sepBy d (y :: r)

/-- `get_max_strlen`, apop_output.m4.c:224-229. -/
def maxLen (names : List CStr) : Nat := names.foldl (fun m s => max m s.length) 0

/-- `a_pipe`, apop_output.m4.c:232-235. -/
def aPipe (d : CStr) (screen : Bool) : CStr := if screen then [32, 124, 32] else d

/-- Is there any name of a column: the condition of apop_output.m4.c:250 and 283. -/
def PSet.hasHead (s : PSet) : Bool := s.vname.isSome || !s.cols.isEmpty || !s.texts.isEmpty

/-- The title, apop_output.m4.c:246-247. -/
def printTitle (s : PSet) : CStr :=
  match s.title with
  | none => []
  | some t => if t = [] then [] else 9 :: t ++ [10, 10]

/-- The place over the row names, apop_output.m4.c:248-255. `apop_opts.db_name_column` is an array, so that the first condition always holds. -/
def printCorner (s : PSet) : CStr := if s.rownames ≠ [] ∧ s.hasHead then padLeft (maxLen s.rownames + 2) [32] ++ [32, 32] else []

/-- The name of the vector, apop_output.m4.c:256-258. -/
def printVname (s : PSet) : CStr :=
  match s.vec, s.vname with
  | some _, some n => n
  | _, _ => []

/-- The column names, apop_output.m4.c:259-270. -/
def printCols (d : CStr) (screen : Bool) (s : PSet) : List (Res CStr) :=
  match s.mat with
  | none => []
  | some _ =>
    (if s.vec.isSome ∧ s.cols ≠ [] then [.ok ((if s.vname.isSome then [32] else [9]) ++ [32] ++ aPipe d screen)] else []) ++ sepBy d (s.cols.map .ok)

/-- The names of the text columns, apop_output.m4.c:271-282. -/
def printTexts (d : CStr) (screen : Bool) (s : PSet) : List (Res CStr) :=
  match s.text with
  | none => []
  | some t =>
    if t.w ≠ 0 ∧ s.texts ≠ [] then
      (if (s.vec.isSome ∧ s.vname.isSome) ∨ (s.mat.isSome ∧ s.cols ≠ []) then [.ok (aPipe d screen)] else []) ++ sepBy d (s.texts.map .ok)
    else []

/-- Everything before the rows, apop_output.m4.c:246-284. -/
def printHead (d : CStr) (screen : Bool) (s : PSet) : List (Res CStr) :=
  [.ok (printTitle s), .ok (printCorner s), .ok (printVname s)] ++ printCols d screen s ++ printTexts d screen s ++ (if s.hasHead then [.ok [10]] else [])

/-- The number of lines, apop_output.m4.c:245. (With neither matrix, vector nor text it is -1 in the code, and nothing is printed either.) -/
def PSet.rowend (s : PSet) : Nat :=
  match s.mat, s.vec, s.text with
  | some m, _, _ => m.rows.length
  | none, some v, _ => v.length
  | none, none, some t => t.rows.length
  | none, none, none => 0

/-- The row's name, apop_output.m4.c:286-287. -/
def printRowname (d : CStr) (s : PSet) (j : Nat) : CStr :=
  match s.rownames[j]? with
  | none => []
  | some n => padLeft (maxLen s.rownames + 2) n ++ d

/-- The element of the vector and what comes after it, apop_output.m4.c:288-297 with i = -1; after the last one, a blank. -/
def printVec (d : CStr) (screen : Bool) (s : PSet) (j : Nat) : List (Res CStr) :=
  match s.vec with
  | none => []
  | some v =>
    (match v[j]? with | some x => pFn x | none => .ok [32]) ::
    (match s.mat with
     | none => []
     | some m => .ok (aPipe d screen) :: (if m.w ≠ 0 then [.ok d] else []))

/-- The row of the matrix, apop_output.m4.c:288-297 with i ≥ 0. -/
def printMat (d : CStr) (s : PSet) (j : Nat) : List (Res CStr) :=
  match s.mat with
  | none => []
  | some m =>
    match m.rows[j]? with
    | none => []
    | some r => sepBy d (r.map pFn)

/-- The row of text, apop_output.m4.c:298-306. -/
def printText (d : CStr) (screen : Bool) (s : PSet) (j : Nat) : List (Res CStr) :=
  match s.text with
  | none => []
  | some t =>
    (if s.vec.isSome ∨ s.mat.isSome then [.ok (aPipe d screen)] else []) ++
    (match t.rows[j]? with | none => [] | some r => sepBy d (r.map .ok))

/-- The weight, apop_output.m4.c:307-310. -/
def printWeight (d : CStr) (screen : Bool) (s : PSet) (j : Nat) : List (Res CStr) :=
  match s.weights with
  | none => []
  | some w => match w[j]? with | none => [] | some x => [.ok (aPipe d screen), pFn x]

/-- One line, apop_output.m4.c:285-312. -/
def printRow (d : CStr) (screen : Bool) (s : PSet) (j : Nat) : List (Res CStr) :=
  .ok (printRowname d s j) :: printVec d screen s j ++ printMat d s j ++ printText d screen s j ++ printWeight d screen s j ++ [.ok [10]]

/-- `apop_data_print_core`, apop_output.m4.c:237-314. -/
def printCore (d : CStr) (screen : Bool) : Option PSet → Res CStr
  | none => .ok [78, 85, 76, 76, 10]
  | some s => cat (printHead d screen s ++ (List.range s.rowend).flatMap (printRow d screen s))

/-! ## Lemmas -/

theorem cat_ok : ∀ (l : List CStr), cat (l.map .ok) = .ok l.flatten
  | [] => rfl
  | x :: l => by simp [cat, cat_ok l, Res.bind]

theorem cat_append : ∀ (a b : List (Res CStr)), cat (a ++ b) = (cat a).bind fun x => (cat b).bind fun y => .ok (x ++ y)
  | [], b => by simp only [List.nil_append, cat, Res.bind]; cases cat b <;> rfl
  | x :: a, b => by
    simp only [List.cons_append, cat, cat_append a b]
    cases x <;> simp only [Res.bind]
    cases cat a <;> simp only [Res.bind]
    cases cat b <;> simp [Res.bind]

/-- The items joined with a delimiter between. -/
def joinD (d : CStr) : List CStr → CStr
  | [] => []
  | [x] => x
  | x :: y :: r => x ++ d ++ joinD d (y :: r)

theorem cat_sepBy (d : CStr) : ∀ (l : List CStr), cat (sepBy d (l.map .ok)) = .ok (joinD d l)
  | [] => rfl
  | [x] => by simp [sepBy, cat, Res.bind, joinD]
  | x :: y :: r => by
    have := cat_sepBy d (y :: r)
    simp only [List.map_cons] at this
    simp [sepBy, cat, Res.bind, joinD, this]

theorem joinD_append (d : CStr) : ∀ (a b : List CStr), a ≠ [] → b ≠ [] → joinD d (a ++ b) = joinD d a ++ d ++ joinD d b
  | [], _, h, _ => absurd rfl h
  | [x], [], _, h => absurd rfl h
  | [x], y :: b, _, _ => by simp [joinD]
  | x :: y :: a, b, _, h => by
    have := joinD_append d (y :: a) b (by simp) h
    simp only [List.cons_append] at this
    simp [joinD, this]

theorem joinD_cons (d x : CStr) (l : List CStr) (h : l ≠ []) : joinD d (x :: l) = x ++ d ++ joinD d l := by
  cases l with
  | nil => exact absurd rfl h
  | cons y l => rfl

end Apop.Out
