import Verif.Regress.Factors
import Verif.Stack.SplitProps
import Verif.Rows.ColProps

/-! # C189: where apop_data_to_dummies puts the dummies -/

namespace Apop.DummyOpts
open Apop.Stack Apop.Rows
variable {α : Type}

/-- A column name in the result: `none` is memory that was freed. -/
abbrev Slot := Option CStr

/-- What is observed after the call: the set returned, the first page of the data, and
the column names of the data as pointers. -/
structure Out (α : Type) where
  ret : Page α
  data : Page α
  slots : List Slot

/-- A page whose column names are all good. -/
def Out.of (ret data : Page α) : Out α := ⟨ret, data, (namesOf data.names Names.col).map some⟩

/-- `apop_return_data_error(d)`. -/
def errPage : Page α := { Page.empty with error := some 'd' }

/-- The checks at the top, apop_regression.m4.c:337-349: `none`: go on. The comparison
of `col` with a size is unsigned, so negative numbers are too large. -/
def refused (text : Bool) (col : Int) (d : Page α) : Res Bool :=
  if text then .ok (decide (col < 0) || decide ((d.textsize.2 : Int) ≤ col))
  else if col = -1 then (if d.vector.isSome then .ok true else .ub)
  else
    match d.matrix with
    | none => .ub
    | some m => .ok (decide (col < 0) || decide ((m.cols : Int) ≤ col))

/-- The places of the column names after apop_regression.m4.c:358-364 (append='i'): the
strings are freed but their count stays, and the names of the parts are added after them. -/
def slotsInPlace (old left : List CStr) (leftCols : Nat) (dum right : List CStr) : List Slot :=
  List.replicate old.length none
    ++ ((left ++ List.replicate (leftCols - (old.length + left.length)) []) ++ dum ++ right).map some

/-- append='i', apop_regression.m4.c:355-374. `split[1]->names` of a missing second part
is a NULL dereference; so is `d->names->colct` without names. -/
def inPlace (junk : α) (col : Int) (d : Page α) (dum : Page α) : Res (Out α) :=
  (splitCols junk [d] (col + 1)).bind fun s =>
    match s.1, s.2, d.names with
    | [s0], [s1], some n =>
      (matStack junk s0.matrix dum.matrix 'c' false).bind fun a =>
        (matStack junk a s1.matrix 'c' true).bind fun b =>
          .ok ⟨{ d with matrix := if a.isSome then (if b.isSome then b else a) else none },
            { d with matrix := if a.isSome then (if b.isSome then b else a) else none },
            slotsInPlace n.col (namesOf s0.names Names.col) ((s0.matrix.map Mat.cols).getD 0)
              (namesOf dum.names Names.col) (namesOf s1.names Names.col)⟩
    | _, _, _ => .ub

/-- remove, apop_regression.m4.c:352-354, 375-378: the list of columns has one place per
*row* of the matrix, and one more. -/
def removeCol (junk : α) (text : Bool) (col : Int) (remove : Char) (d : Page α) : Res (Page α) :=
  if remove ≠ 'n' ∧ text = false then
    (wr (List.replicate ((d.matrix.map Mat.size1).getD 0 + 1) false) col.toNat true).bind fun drop => rmColumns junk d drop
  else .ok d

/-- The append options other than 'i', apop_regression.m4.c:379-384. -/
def appendCols (junk : α) (append : Char) (d dum : Page α) : Res (Out α) :=
  if append = 'y' ∨ append = 'e' ∨ append = Char.ofNat 1 then
    (stack junk [d] [dum] 'c' true).bind fun r =>
      match r.1 with
      | x :: _ => .ok (Out.of x x)
      | [] => .ub
  else .ok (Out.of dum d)

/-- `apop_data_to_dummies` (apop_regression.m4.c:326-386) after its checks: `dum` is what
`dummies_and_factors_core` made (C84), a matrix with column names. The further pages of
the data, where the list of categories goes, are left out. -/
def place (junk : α) (text : Bool) (col : Int) (append remove : Char) (d dum : Page α) : Res (Out α) :=
  if append = 'i' then inPlace junk col d dum
  else (removeCol junk text col remove d).bind fun d' => appendCols junk append d' dum

/-- The whole of it. -/
def toDummies (junk : α) (text : Bool) (col : Int) (append remove : Char) (d : Page α) (core : Page α → Res (Page α)) : Res (Out α) :=
  (refused text col d).bind fun r =>
    if r then .ok (Out.of errPage d)
    else (core d).bind fun dum => place junk text col append remove d dum

/-! ## Specification -/

/-- A page of dummies for `d`: a matrix with as many rows, and nothing else but column
names, at least one. -/
structure IsDummies (dum : Page α) (rows : Nat) (m : Mat α) (names : List CStr) : Prop where
  mat : dum.matrix = some m
  wf : m.WF
  height : m.size1 = rows
  vec : dum.vector = none
  txt : dum.text = []
  nm : ∃ n, dum.names = some n ∧ n.col = names
  some : names ≠ []

/-- Column `j` taken out. -/
def without (j : Nat) (m : Mat α) : Mat α := ⟨m.rows.map (·.eraseIdx j), m.cols - 1⟩

/-- Two matrices side by side. -/
def beside (a b : Mat α) : Mat α := ⟨List.zipWith (· ++ ·) a.rows b.rows, a.cols + b.cols⟩

/-- Names filled with blanks up to a width. -/
def padTo (w : Nat) (l : List CStr) : List CStr := l ++ List.replicate (w - l.length) []

/-! ## Removing the column -/

theorem keepBy_all {β : Type} (l : List β) : keepBy (fun _ => true) l = l := by
  unfold keepBy
  rw [List.filter_eq_self.2 (by simp)]
  simp

theorem keepBy_cons {β : Type} (keep : Nat → Bool) (a : β) (l : List β) :
    keepBy keep (a :: l) = (if keep 0 then [a] else []) ++ keepBy (fun i => keep (i + 1)) l := by
  have e := keepBy_append keep [a] l
  rw [List.singleton_append] at e
  rw [e]
  congr 1
  · unfold keepBy
    cases h : keep 0 <;> simp [h]
  · congr 1
    funext i
    simp [Nat.add_comm]

theorem keepBy_erase {β : Type} (j : Nat) (l : List β) : keepBy (fun i => i != j) l = l.eraseIdx j := by
  induction l generalizing j with
  | nil => simp [keepBy]
  | cons a l ih =>
    rw [keepBy_cons]
    cases j with
    | zero =>
      have : (fun i : Nat => (i + 1) != 0) = fun _ => true := by funext i; simp
      rw [this, keepBy_all]
      simp
    | succ j =>
      have : (fun i : Nat => (i + 1) != (j + 1)) = fun i => i != j := by funext i; simp
      rw [this, ih]
      simp

theorem kept_one (j : Nat) : ∀ n, kept (fun i => i != j) n = if j < n then n - 1 else n := by
  intro n
  induction n with
  | zero => simp [kept]
  | succ n ih =>
    rw [kept_succ, ih]
    by_cases h : j < n
    · have : n ≠ j := by omega
      rw [if_pos h, if_pos (show j < n + 1 by omega)]
      simp [this]; omega
    · rw [if_neg h]
      by_cases h2 : j = n
      · subst h2; simp
      · have : n ≠ j := by omega
        rw [if_neg (show ¬ j < n + 1 by omega)]
        simp [this]

theorem undropped_one (n j : Nat) (hj : j < n) : undropped ((List.replicate n false).set j true) = fun i => i != j := by
  funext i
  unfold undropped
  rw [List.getElem?_set]
  by_cases h : j = i
  · subst h; simp [hj]
  · rw [if_neg h, List.getElem?_replicate]
    have : (i != j) = true := by simp; omega
    rw [this]
    by_cases h2 : i < n <;> simp [h2]

/-- The column's removal, for a matrix with no more columns (and column names) than rows
plus one. -/
theorem removeCol_ok (junk : α) (d : Page α) (m : Mat α) (n : Names) (j : Nat) (remove : Char) (hr : remove ≠ 'n')
    (hm : d.matrix = some m) (hwf : m.WF) (hn : d.names = some n) (hj : j < m.cols) (h2 : 2 ≤ m.cols)
    (hc : m.cols ≤ m.size1 + 1) (hcn : n.col.length ≤ m.size1 + 1) :
    removeCol junk false (j : Int) remove d = .ok { d with matrix := some (without j m), names := some { n with col := n.col.eraseIdx j } } := by
  have hu := undropped_one (m.size1 + 1) j (by omega)
  unfold removeCol
  rw [if_pos ⟨hr, rfl⟩, hm]
  simp only [Option.map_some, Option.getD_some, Int.toNat_natCast]
  rw [show wr (List.replicate (m.size1 + 1) false) j true = .ok ((List.replicate (m.size1 + 1) false).set j true) from
    wr_of_lt (by simp; omega)]
  simp only [Res.bind]
  rw [C15_rm_columns junk d m n _ hm hwf hn (by simpa using hc) (by simpa using hcn)]
  unfold onlyCols
  rw [hm, hn, hu]
  simp only [Option.bind_some, Option.map_some, kept_one, if_pos hj, keepBy_erase]
  rw [if_neg (by omega)]
  rw [show (keepBy fun i => i != j : List α → List α) = fun l => l.eraseIdx j from funext (keepBy_erase j)]
  rfl

/-! ## Appending -/

theorem stack_names (n1 n2 : Names) : ((n1.addAll (List.replicate k []) 'c').stack (some n2) (some 'c') none).col
    = n1.col ++ List.replicate k [] ++ n2.col := by
  obtain ⟨b1, -⟩ := Names.addAll_of_col (n := n1) (src := List.replicate k []) (t := 'c')
    (by decide) (by decide) (by decide) (by decide)
  obtain ⟨c1, -⟩ := Names.addAll_of_col (n := n1.addAll (List.replicate k []) 'c') (src := n2.col) (t := 'c')
    (by decide) (by decide) (by decide) (by decide)
  simp only [Names.stack, Names.stackTypes, Option.getD_some, Option.getD_none]
  rw [if_neg (by decide), if_neg (by decide), if_neg (by decide), if_pos trivial, c1, b1]

theorem append_ok (junk : α) (d dum : Page α) (m D : Mat α) (n : Names) (names : List CStr) (append : Char)
    (ha : append = 'y' ∨ append = 'e' ∨ append = Char.ofNat 1) (hm : d.matrix = some m) (hwf : m.WF)
    (hn : d.names = some n) (hd : IsDummies dum m.size1 D names) :
    ∃ o, appendCols junk append d dum = .ok o ∧ o.ret = o.data ∧ o.data.vector = d.vector ∧ o.data.weights = d.weights
      ∧ o.data.text = d.text ∧ o.data.matrix = some (beside m D)
      ∧ o.slots = (padTo m.cols n.col ++ names).map some := by
  obtain ⟨h1, h2, h3, h4, h5, ⟨n2, h6, h7⟩, h8⟩ := hd
  unfold appendCols
  rw [if_pos ha]
  have hms := C12_matrix_stack_cols junk m D hwf h2 true
  rw [if_pos h3.symm] at hms
  have hs : stack junk [d] [dum] 'c' true = .ok (
      [{ d with matrix := some (beside m D), names := some ((n.addAll (List.replicate (m.cols - n.col.length) []) 'c').stack (some n2) (some 'c') none) }],
      [{ d with matrix := some (beside m D), names := some ((n.addAll (List.replicate (m.cols - n.col.length) []) 'c').stack (some n2) (some 'c') none) }]) := by
    unfold stack
    rw [if_neg (by decide)]
    simp only [if_true]
    have hb : stackBody junk d dum d id 'c' = .ok { d with matrix := some (beside m D), names := some ((n.addAll (List.replicate (m.cols - n.col.length) []) 'c').stack (some n2) (some 'c') none) } := by
      unfold stackBody
      have hnn : ¬ (dum.names.isSome = true ∧ d.names.isNone = true) := by rw [hn]; simp
      simp only [hnn, if_false, if_true, stackVecCol, h4, Res.bind_ok, hm, h1, hms, show ¬ (('c' : Char) = 'r') by decide,
        stackText, h5, id]
      unfold stackNames
      rw [h6, hn]
      simp only [h7, h8, ne_eq, not_false_iff, and_true, true_or, or_true, if_true, Option.map_some, Option.getD_some,
        show ¬ (('c' : Char) = 'r') by decide, if_false, Res.bind_ok]
      rfl
    rw [hb]
    rfl
  rw [hs]
  refine ⟨_, rfl, rfl, rfl, rfl, rfl, rfl, ?_⟩
  simp only [Out.of, namesOf, Option.map_some, Option.getD_some, stack_names, padTo, h7]

/-- **C189.** With append 'y' or 'e' the dummies become the last columns of the data, with
their names under them; vector, weights and text stay; what is returned is the data. -/
theorem C189_append (junk : α) (text : Bool) (col : Int) (d dum : Page α) (m D : Mat α) (n : Names) (names : List CStr)
    (append remove : Char) (ha : append = 'y' ∨ append = 'e') (hr : remove = 'n' ∨ text = true) (hm : d.matrix = some m) (hwf : m.WF)
    (hn : d.names = some n) (hd : IsDummies dum m.size1 D names) :
    ∃ o, place junk text col append remove d dum = .ok o ∧ o.ret = o.data ∧ o.data.vector = d.vector ∧ o.data.weights = d.weights
      ∧ o.data.text = d.text ∧ o.data.matrix = some (beside m D)
      ∧ o.slots = (padTo m.cols n.col ++ names).map some := by
  unfold place
  rw [if_neg (by rcases ha with rfl | rfl <;> decide)]
  have hrm : removeCol junk text col remove d = .ok d := by
    unfold removeCol
    rw [if_neg (by rcases hr with rfl | rfl <;> simp)]
  rw [hrm]
  exact append_ok junk d dum m D n names append (ha.imp_right Or.inl) hm hwf hn hd

/-- **C189.** remove without append: the dummies are returned on their own, and exactly
the source column and its name leave the data. -/
theorem C189_remove (junk : α) (d dum : Page α) (m : Mat α) (n : Names) (j : Nat) (append remove : Char) (hr : remove ≠ 'n')
    (ha : append = 'n') (hm : d.matrix = some m) (hwf : m.WF) (hn : d.names = some n) (hj : j < m.cols) (h2 : 2 ≤ m.cols)
    (hc : m.cols ≤ m.size1 + 1) (hcn : n.col.length ≤ m.size1 + 1) :
    place junk false (j : Int) append remove d dum = .ok ⟨dum, { d with matrix := some (without j m), names := some { n with col := n.col.eraseIdx j } },
      (n.col.eraseIdx j).map some⟩ := by
  unfold place
  rw [ha, if_neg (by decide), removeCol_ok junk d m n j remove hr hm hwf hn hj h2 hc hcn]
  simp only [Res.bind, appendCols]
  rw [if_neg (by decide)]
  rfl

/-- **C189.** remove with append 'y' or 'e': the source column is replaced by the dummies
at the end. -/
theorem C189_remove_append (junk : α) (d dum : Page α) (m D : Mat α) (n : Names) (names : List CStr) (j : Nat) (append remove : Char)
    (hr : remove ≠ 'n') (ha : append = 'y' ∨ append = 'e') (hm : d.matrix = some m) (hwf : m.WF) (hn : d.names = some n) (hj : j < m.cols)
    (h2 : 2 ≤ m.cols) (hc : m.cols ≤ m.size1 + 1) (hcn : n.col.length ≤ m.size1 + 1) (hd : IsDummies dum m.size1 D names) :
    ∃ o, place junk false (j : Int) append remove d dum = .ok o ∧ o.ret = o.data ∧ o.data.vector = d.vector ∧ o.data.weights = d.weights
      ∧ o.data.text = d.text ∧ o.data.matrix = some (beside (without j m) D)
      ∧ o.slots = (padTo (m.cols - 1) (n.col.eraseIdx j) ++ names).map some := by
  unfold place
  rw [if_neg (by rcases ha with rfl | rfl <;> decide), removeCol_ok junk d m n j remove hr hm hwf hn hj h2 hc hcn]
  refine append_ok junk { d with matrix := some (without j m), names := some { n with col := n.col.eraseIdx j } } dum (without j m) D
    { n with col := n.col.eraseIdx j } names append (ha.imp_right Or.inl) rfl ?_ rfl ?_
  · intro r hr'
    obtain ⟨x, hx, rfl⟩ := List.mem_map.mp hr'
    have := hwf x hx
    rw [List.length_eraseIdx, if_pos (by omega), this]; rfl
  · rw [show (without j m).size1 = m.size1 by simp [without, Mat.size1]]; exact hd

/-- **C189.** In place, for any column that is not the last: the dummies are right after their column; the list of column names
afterwards, exactly (`none`: freed memory, see `C189_in_place_names_refuted`). -/
theorem C189_in_place_all (junk : α) (text : Bool) (d dum : Page α) (m D : Mat α) (n : Names) (names : List CStr) (j : Nat) (remove : Char)
    (hp : d.WF) (hm : d.matrix = some m) (hn : d.names = some n) (hj : j + 1 < m.cols) (h0 : m.size1 ≠ 0)
    (hd : IsDummies dum m.size1 D names) :
    place junk text (j : Int) 'i' remove d dum =
      .ok ⟨{ d with matrix := some (beside (beside ⟨m.rows.map (List.take (j + 1)), j + 1⟩ D) ⟨m.rows.map (List.drop (j + 1)), m.cols - (j + 1)⟩) },
        { d with matrix := some (beside (beside ⟨m.rows.map (List.take (j + 1)), j + 1⟩ D) ⟨m.rows.map (List.drop (j + 1)), m.cols - (j + 1)⟩) },
        List.replicate n.col.length none ++
          (n.col.take (j + 1) ++ List.replicate (j + 1 - (n.col.length + min (j + 1) n.col.length)) [] ++ names ++ n.col.drop (j + 1)).map some⟩ := by
  obtain ⟨h1, h2, h3, h4, h5, ⟨n2, h6, h7⟩, h8⟩ := hd
  obtain ⟨o0, o1, n0, n1, r, s1, -, -, -, -, s2, s3, s4, s5, -, -, s6, s7, -⟩ :=
    C13_split_cols junk d [] (j + 1) n m hp hn hm (by omega) hj h0
  have hmw := hp.1 m hm
  have w0 : (⟨m.rows.map (List.take (j + 1)), j + 1⟩ : Mat α).WF := by
    intro x hx
    obtain ⟨y, hy, rfl⟩ := List.mem_map.mp hx
    have := hmw y hy
    simp only [List.length_take]; omega
  have w1 : (⟨m.rows.map (List.drop (j + 1)), m.cols - (j + 1)⟩ : Mat α).WF := by
    intro x hx
    obtain ⟨y, hy, rfl⟩ := List.mem_map.mp hx
    have := hmw y hy
    simp only [List.length_drop]; omega
  have e0 := C12_matrix_stack_cols junk ⟨m.rows.map (List.take (j + 1)), j + 1⟩ D w0 h2 false
  rw [if_pos (by rw [h3]; simp [Mat.size1])] at e0
  have wb : (beside ⟨m.rows.map (List.take (j + 1)), j + 1⟩ D).WF := by
    intro x hx
    unfold beside at hx
    simp only [List.mem_iff_getElem, List.length_zipWith, List.getElem_zipWith] at hx
    obtain ⟨i, hi, rfl⟩ := hx
    rw [List.length_append, w0 _ (List.getElem_mem _), h2 _ (List.getElem_mem _)]
    rfl
  have e1 := C12_matrix_stack_cols junk (beside ⟨m.rows.map (List.take (j + 1)), j + 1⟩ D) ⟨m.rows.map (List.drop (j + 1)), m.cols - (j + 1)⟩ wb w1 true
  rw [if_pos (by simp only [Mat.size1] at h3 ⊢; simp [beside, h3])] at e1
  unfold place
  rw [if_pos rfl]
  unfold inPlace
  rw [show (j : Int) + 1 = ((j + 1 : Nat) : Int) by omega, s1]
  simp only [Res.bind, hn, s2, s3, h1, e0]
  rw [show (⟨List.zipWith (· ++ ·) (m.rows.map (List.take (j + 1))) D.rows, j + 1 + D.cols⟩ : Mat α) = beside ⟨m.rows.map (List.take (j + 1)), j + 1⟩ D from rfl, e1]
  simp only [Option.isSome_some, if_true, s4, s5, h6, namesOf, Option.map_some, Option.getD_some, s6, s7, h7, slotsInPlace]
  simp [beside]

/-- **C189.** In place, for data without column names and a column that is not the last:
the dummies are right after their column, and named. -/
theorem C189_in_place (junk : α) (text : Bool) (d dum : Page α) (m D : Mat α) (n : Names) (names : List CStr) (j : Nat) (remove : Char)
    (hp : d.WF) (hm : d.matrix = some m) (hn : d.names = some n) (hnc : n.col = []) (hj : j + 1 < m.cols) (h0 : m.size1 ≠ 0)
    (hd : IsDummies dum m.size1 D names) :
    place junk text (j : Int) 'i' remove d dum =
      .ok ⟨{ d with matrix := some (beside (beside ⟨m.rows.map (List.take (j + 1)), j + 1⟩ D) ⟨m.rows.map (List.drop (j + 1)), m.cols - (j + 1)⟩) },
        { d with matrix := some (beside (beside ⟨m.rows.map (List.take (j + 1)), j + 1⟩ D) ⟨m.rows.map (List.drop (j + 1)), m.cols - (j + 1)⟩) },
        (List.replicate (j + 1) [] ++ names).map some⟩ := by
  have h := C189_in_place_all junk text d dum m D n names j remove hp hm hn hj h0 hd
  rw [h]
  simp [hnc]

/-! ## What the documentation promises and the code does not do -/

/-- **C189** (refuted): in place, the column names are freed but stay in the list: every
data set with a column name is left with that many dangling names in front. -/
theorem C189_in_place_names_refuted (junk : α) (text : Bool) (col : Int) (remove : Char) (d dum : Page α) (n : Names) (hn : d.names = some n)
    (hc : n.col ≠ []) (o : Out α) (h : place junk text col 'i' remove d dum = .ok o) :
    o.slots.take n.col.length = List.replicate n.col.length none ∧ o.slots[0]? = some none := by
  unfold place at h
  rw [if_pos rfl] at h
  unfold inPlace at h
  cases hs : splitCols junk [d] (col + 1) with
  | ub => rw [hs] at h; simp [Res.bind] at h
  | ok s =>
    obtain ⟨l0, l1⟩ := s
    rw [hs, hn] at h
    simp only [Res.bind] at h
    match l0, l1, h with
    | [s0], [s1], h =>
      simp only [] at h
      cases h1 : matStack junk s0.matrix dum.matrix 'c' false with
      | ub => rw [h1] at h; simp [] at h
      | ok a =>
        rw [h1] at h
        simp only [] at h
        cases h2 : matStack junk a s1.matrix 'c' true with
        | ub => rw [h2] at h; simp [] at h
        | ok b =>
          rw [h2] at h
          simp only [Res.ok.injEq] at h
          subst h
          have hl : 0 < n.col.length := List.length_pos_of_ne_nil hc
          constructor
          · simp [slotsInPlace]
          · simp only [slotsInPlace]
            rw [List.getElem?_append_left (by simpa using hl)]
            simp [hl]
    | [], _, h => simp at h
    | _ :: _ :: _, _, h => simp at h
    | [_], [], h => simp at h
    | [_], _ :: _ :: _, h => simp at h

/-- **C189** (refuted): dummies can be put in place after the last column: the second part
of the split is NULL, and is read. In particular for every matrix of one column. -/
theorem C189_in_place_last_refuted (junk : α) (text : Bool) (remove : Char) (d dum : Page α) (m : Mat α) (hm : d.matrix = some m)
    (j : Nat) (hj : m.cols ≤ j + 1) : place junk text (j : Int) 'i' remove d dum = .ub := by
  unfold place
  rw [if_pos rfl]
  unfold inPlace splitCols
  simp only []
  rw [if_neg (by omega), if_pos (by simp [pastCols, hm]; omega)]
  cases hc : Page.copy junk [d] with
  | ub => simp [Res.bind]
  | ok c =>
    simp only [Res.bind_ok]
    match c with
    | [] => rfl
    | [x] => rfl
    | x :: y :: z => rfl

/-- **C189** (refuted): "you will probably use this with remove='y'": in place, remove
does nothing. -/
theorem C189_in_place_remove_refuted (junk : α) (text : Bool) (col : Int) (r r' : Char) (d dum : Page α) :
    place junk text col 'i' r d dum = place junk text col 'i' r' d dum := by
  unfold place
  rw [if_pos rfl, if_pos rfl]

/-- **C189** (refuted): remove for a matrix with more columns than rows plus one: the list
of columns is too short. -/
theorem C189_remove_wide_refuted (junk : α) (d dum : Page α) (m : Mat α) (j : Nat) (append remove : Char) (hr : remove ≠ 'n') (ha : append ≠ 'i')
    (hm : d.matrix = some m) (hc : m.size1 + 1 < m.cols) : place junk false (j : Int) append remove d dum = .ub := by
  unfold place
  rw [if_neg ha]
  unfold removeCol
  rw [if_pos ⟨hr, rfl⟩, hm]
  simp only [Option.map_some, Option.getD_some, Int.toNat_natCast]
  by_cases h : j < m.size1 + 1
  · rw [show wr (List.replicate (m.size1 + 1) false) j true = .ok ((List.replicate (m.size1 + 1) false).set j true) from
      wr_of_lt (by simpa using h)]
    simp only [Res.bind]
    rw [C15_short_drop_ub junk d m _ hm (by simpa using hc)]
  · rw [show wr (List.replicate (m.size1 + 1) false) j true = .ub from by simp [wr]; omega]
    rfl

/-- **C189.** Requests for a column that is not there are refused with error 'd', and the
data is left alone. -/
theorem C189_refused (junk : α) (text : Bool) (col : Int) (append remove : Char) (d : Page α) (core : Page α → Res (Page α))
    (h : (text = true ∧ (col < 0 ∨ d.textsize.2 ≤ col)) ∨ (text = false ∧ col ≠ -1 ∧ ∃ m, d.matrix = some m ∧ (col < 0 ∨ m.cols ≤ col))) :
    ∃ o, toDummies junk text col append remove d core = .ok o ∧ o.ret.error = some 'd' ∧ o.data = d := by
  unfold toDummies refused
  rcases h with ⟨rfl, h⟩ | ⟨rfl, h1, m, hm, h⟩
  · rw [if_pos rfl]
    refine ⟨Out.of errPage d, ?_, rfl, rfl⟩
    simp only [Res.bind]
    rw [if_pos (by simpa using h)]
  · rw [if_neg (by decide), if_neg h1, hm]
    refine ⟨Out.of errPage d, ?_, rfl, rfl⟩
    simp only [Res.bind]
    rw [if_pos (by simpa using h)]

/-- **C189** (refuted): the vector can be turned into dummies (col −1): a data set with a vector is refused, one without is read through NULL. -/
theorem C189_vector_refuted (junk : α) (append remove : Char) (d : Page α) (core : Page α → Res (Page α)) :
    toDummies junk false (-1) append remove d core = if d.vector.isSome then .ok (Out.of errPage d) else .ub := by
  unfold toDummies refused
  rw [if_neg (by decide), if_pos rfl]
  cases d.vector <;> rfl

/-- **C189** (refuted): numeric columns of data without a matrix are refused: NULL is read. -/
theorem C189_no_matrix_refuted (junk : α) (col : Int) (hc : col ≠ -1) (append remove : Char) (d : Page α) (core : Page α → Res (Page α))
    (hm : d.matrix = none) : toDummies junk false col append remove d core = .ub := by
  unfold toDummies refused
  rw [if_neg (by decide), if_neg hc, hm]
  rfl

/-! ## Not vacuous -/

def exD : Page Nat := { matrix := some ⟨[[1, 5, 9], [2, 6, 8]], 3⟩, names := some Names.alloc }
def exN : Names := Names.alloc.addAll [str "a", str "b", str "c"] 'c'
def exDum : Page Nat := { matrix := some ⟨[[0, 1], [1, 0]], 2⟩, names := some (Names.alloc.addAll [str "x", str "y"] 'c') }

theorem exDum_ok : IsDummies exDum 2 ⟨[[0, 1], [1, 0]], 2⟩ [str "x", str "y"] where
  mat := rfl
  wf := by intro r hr; simp at hr; rcases hr with rfl | rfl <;> rfl
  height := rfl
  vec := rfl
  txt := rfl
  nm := ⟨_, rfl, by decide +kernel⟩
  some := by simp

/-- Column 1 of a named 2×3 table replaced by two dummies at the end. -/
example : ∃ o, place 0 false ((1 : Nat) : Int) 'e' 'y' { exD with names := some exN } exDum = .ok o
    ∧ o.data.matrix = some ⟨[[1, 9, 0, 1], [2, 8, 1, 0]], 4⟩ ∧ o.slots = [str "a", str "c", str "x", str "y"].map some := by
  obtain ⟨o, h1, -, -, -, -, h2, h3⟩ := C189_remove_append 0 { exD with names := some exN } exDum ⟨[[1, 5, 9], [2, 6, 8]], 3⟩ _ exN _ 1 'e' 'y'
    (by decide) (Or.inr rfl) rfl (by intro r hr; simp at hr; rcases hr with rfl | rfl <;> rfl) rfl (by decide) (by decide) (by decide)
    (by decide +kernel) exDum_ok
  refine ⟨o, h1, h2, ?_⟩
  rw [h3]
  decide +kernel

/-- In place after column 1, and after the last column. -/
example : (∃ o, place 0 false ((1 : Nat) : Int) 'i' 'n' exD exDum = .ok o ∧ o.data.matrix = some ⟨[[1, 5, 0, 1, 9], [2, 6, 1, 0, 8]], 5⟩)
    ∧ place 0 false ((2 : Nat) : Int) 'i' 'n' exD exDum = .ub := by
  refine ⟨⟨_, C189_in_place 0 false exD exDum ⟨[[1, 5, 9], [2, 6, 8]], 3⟩ _ _ _ 1 'n' ?_ rfl rfl rfl (by decide) (by decide) exDum_ok, rfl⟩,
    C189_in_place_last_refuted 0 false 'n' exD exDum _ rfl 2 (by decide)⟩
  refine ⟨?_, ⟨rfl, by simp [exD]⟩, Iff.rfl⟩
  intro m hm
  simp only [exD, Option.some.injEq] at hm
  subst hm
  intro r hr
  simp at hr
  rcases hr with rfl | rfl <;> rfl

/-- **C189** (refuted): "if you asked for a text column, I will append to the end": text
column 0 goes after column 0 of the matrix. -/
theorem C189_in_place_text_refuted : ∃ o, place 0 true ((0 : Nat) : Int) 'i' 'n' exD exDum = .ok o
    ∧ o.data.matrix = some ⟨[[1, 0, 1, 5, 9], [2, 1, 0, 6, 8]], 5⟩ := by
  refine ⟨_, C189_in_place 0 true exD exDum ⟨[[1, 5, 9], [2, 6, 8]], 3⟩ _ _ _ 0 'n' ?_ rfl rfl rfl (by decide) (by decide) exDum_ok, rfl⟩
  refine ⟨?_, ⟨rfl, by simp [exD]⟩, Iff.rfl⟩
  intro m hm
  simp only [exD, Option.some.injEq] at hm
  subst hm
  intro r hr
  simp at hr
  rcases hr with rfl | rfl <;> rfl

end Apop.DummyOpts
