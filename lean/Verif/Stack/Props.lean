import Verif.Stack.Lemmas
import Verif.Data.CopyProps
import Verif.Name.Props

/-! # C12 (stacking) and C13 (splitting) -/

namespace Apop.Stack
variable {α : Type}

/-! ## Specification -/

/-- One optional list on top of another. -/
def over {β : Type} : Option (List β) → Option (List β) → Option (List β)
  | none, b => b
  | a, none => a
  | some a, some b => some (a ++ b)

/-- One optional matrix on top of another (same width). -/
def matOver : Option (Mat α) → Option (Mat α) → Option (Mat α)
  | none, b => b
  | a, none => a
  | some a, some b => some ⟨a.rows ++ b.rows, a.cols⟩

/-- One optional matrix to the left of another (same height). -/
def matBeside : Option (Mat α) → Option (Mat α) → Option (Mat α)
  | none, b => b
  | a, none => a
  | some a, some b => some ⟨List.zipWith (· ++ ·) a.rows b.rows, a.cols + b.cols⟩

/-- A vector as a one-column matrix. -/
def asColumn (v : List α) : Mat α := ⟨v.map (fun x => [x]), 1⟩

/-- The number of rows of the numeric part. -/
def numRows (p : Page α) : Nat := max ((p.vector.map List.length).getD 0) ((p.matrix.map Mat.size1).getD 0)

/-- Names after stacking: the first list, padded with blank names up to the number of rows/columns it
should name, then the second; nothing is padded if the second list is empty. -/
def joinNames (a b : List CStr) (n : Nat) : List CStr :=
  if b = [] then a else a ++ List.replicate (n - a.length) [] ++ b

/-- The row (or column, text) names of an optional structure. -/
def namesOf (n : Option Names) (sel : Names → List CStr) : List CStr := (n.map sel).getD []

/-- Can be stacked by rows: equal widths where both have the part. -/
def RowCompat (p q : Page α) : Prop :=
  (∀ a b, p.matrix = some a → q.matrix = some b → a.cols = b.cols) ∧
  (p.text ≠ [] → q.text ≠ [] → p.textsize.2 = q.textsize.2)

theorem matStack_over (junk : α) (a b : Option (Mat α)) (ha : ∀ m, a = some m → m.WF)
    (hb : ∀ m, b = some m → m.WF) (hc : ∀ x y, a = some x → b = some y → x.cols = y.cols)
    (inplace : Bool) : matStack junk a b 'r' inplace = .ok (matOver a b) := by
  cases a with
  | none => cases b <;> rfl
  | some a =>
    cases b with
    | none => rfl
    | some b => exact matStack_rows junk a b (ha a rfl) (hb b rfl) (hc a b rfl rfl) inplace

theorem matStack_beside (junk : α) (a b : Option (Mat α)) (ha : ∀ m, a = some m → m.WF)
    (hb : ∀ m, b = some m → m.WF) (hc : ∀ x y, a = some x → b = some y → x.size1 = y.size1)
    (inplace : Bool) : matStack junk a b 'c' inplace = .ok (matBeside a b) := by
  cases a with
  | none => cases b <;> rfl
  | some a =>
    cases b with
    | none => rfl
    | some b => exact matStack_cols junk a b (ha a rfl) (hb b rfl) (hc a b rfl rfl) inplace

theorem vecStack_over (junk : α) (a b : Option (List α)) : vecStack junk a b = over a b := by
  cases a <;> cases b <;> simp [vecStack, over]

theorem text_nil_iff {p : Page α} (h : p.TextWF) : p.text = [] ↔ p.textsize.1 = 0 := by
  rw [← h.1, List.length_eq_zero_iff]

theorem stackText_rows (out q : Page α) (ho : out.TextWF) (hq : q.TextWF)
    (hc : out.text ≠ [] → q.text ≠ [] → out.textsize.2 = q.textsize.2) :
    ∃ ts, stackText 'r' out q = .ok ({ out with text := out.text ++ q.text, textsize := ts }, true) ∧
      ts.1 = out.textsize.1 + q.textsize.1 ∧ (q.text ≠ [] → ts.2 = q.textsize.2) ∧
      (q.text = [] → ts = out.textsize) := by
  by_cases h : q.text = []
  · refine ⟨out.textsize, by simp [stackText, h], ?_, by simp [h], by simp⟩
    have := (text_nil_iff hq).1 h
    omega
  · have hcond : ¬ (out.text ≠ [] ∧ q.textsize.2 ≠ out.textsize.2) := by
      rintro ⟨h1, h2⟩; exact h2 (hc h1 h).symm
    have hrow : ∀ r ∈ out.text, r.length = q.textsize.2 := by
      intro r hr
      have hne : out.text ≠ [] := by intro h; rw [h] at hr; simp at hr
      rw [ho.2 r hr, hc hne h]
    refine ⟨(out.textsize.1 + q.textsize.1, q.textsize.2), ?_, rfl, fun _ => rfl, fun h' => absurd h' h⟩
    simp only [stackText, h, if_false, if_true, hcond]
    rw [← ho.1, ← hq.1, growText_rows _ _ _ hrow, copyText_tail _ _ _ hq.2]
    simp

theorem stackNames_rows (n1 o : Names) (q : Option Names) (rows cols : Nat)
    (hrow : o.row.length = n1.row.length) (hg : o.Good) :
    ∃ n, stackNames 'r' (some n1) (some o) q rows cols = .ok (some n) ∧
      n.row = (if namesOf q Names.row = [] then o.row
        else o.row ++ List.replicate (rows - n1.row.length) [] ++ namesOf q Names.row) ∧
      n.col = o.col ∧ n.text = o.text ∧ n.vector = o.vector ∧ n.title = o.title ∧ n.Good := by
  cases q with
  | none => exact ⟨o, rfl, by simp [namesOf], rfl, rfl, rfl, rfl, hg⟩
  | some n2 =>
    by_cases h : n2.row = []
    · refine ⟨o, by simp [stackNames, h], by simp [namesOf, h], rfl, rfl, rfl, rfl, hg⟩
    · let o1 := o.addAll (List.replicate (rows - n1.row.length) []) 'r'
      obtain ⟨a1, a2, a3, a4, a5⟩ := Names.addAll_of_row (n := o)
        (src := List.replicate (rows - n1.row.length) [])
      obtain ⟨b1, b2, b3, b4, b5⟩ := Names.addAll_of_row (n := o1) (src := n2.row)
      refine ⟨o1.addAll n2.row 'r', ?_, ?_, ?_, ?_, ?_, ?_, ?_⟩
      · simp [stackNames, h, Names.stack, Names.stackTypes, o1]
      · simp only [namesOf, Option.map_some, Option.getD_some, h, if_false]
        rw [b1, a1]
      · rw [b2, a2]
      · rw [b3, a3]
      · rw [b4, a4]
      · rw [b5, a5]
      · exact Names.good_addAll (Names.good_addAll hg _ _) _ _

theorem stackBody_rows (junk : α) (p q out : Page α) (n1 o : Names) (f : Option Names → Option Names)
    (hp : p.WF) (hq : q.WF) (hc : RowCompat p q)
    (e1 : out.vector = p.vector) (e2 : out.matrix = p.matrix) (e3 : out.weights = p.weights)
    (e4 : out.text = p.text) (e5 : out.textsize = p.textsize) (e6 : out.names = some o)
    (ef : f (some o) = some n1) (hrow : o.row = n1.row) (hg : o.Good) :
    ∃ r n, stackBody junk p q out f 'r' = .ok r ∧
      r.vector = over p.vector q.vector ∧ r.weights = over p.weights q.weights ∧
      r.matrix = matOver p.matrix q.matrix ∧ r.text = p.text ++ q.text ∧
      r.textsize.1 = p.textsize.1 + q.textsize.1 ∧ (q.text ≠ [] → r.textsize.2 = q.textsize.2) ∧
      (q.text = [] → r.textsize = p.textsize) ∧
      r.error = out.error ∧ r.names = some n ∧
      n.row = joinNames n1.row (namesOf q.names Names.row) (numRows p) ∧
      n.col = o.col ∧ n.text = o.text ∧ n.vector = o.vector ∧ n.title = o.title ∧ n.Good := by
  obtain ⟨hpm, hpt, -⟩ := hp
  obtain ⟨hqm, hqt, -⟩ := hq
  have hout : (if q.names.isSome ∧ out.names.isNone then { out with names := some Names.alloc } else out)
      = out := by simp [e6]
  let out2 : Page α := { out with matrix := matOver p.matrix q.matrix
                                  vector := over p.vector q.vector, weights := over p.weights q.weights }
  obtain ⟨ts, h1, h2, h3, h4⟩ := stackText_rows out2 q
    (by simp only [Page.TextWF, out2, e4, e5]; exact hpt) hqt
    (by simp only [out2, e4, e5]; exact hc.2)
  obtain ⟨n, g1, g2, g3, g4, g5, g6, g7⟩ := stackNames_rows n1 o q.names (numRows p)
    ((p.matrix.map Mat.cols).getD 0) (by rw [hrow]) hg
  refine ⟨{ out2 with text := out2.text ++ q.text, textsize := ts, names := some n }, n, ?_, rfl, rfl,
    rfl, by simp [out2, e4], by simpa [out2, e5] using h2, h3, by simpa [out2, e5] using h4, rfl, rfl, ?_,
    g3, g4, g5, g6, g7⟩
  · unfold stackBody
    have hne : ¬ ('r' : Char) = 'c' := by decide
    simp only [hout, hne, if_false, if_true, Res.bind_ok]
    rw [e2, matStack_over junk p.matrix q.matrix hpm hqm hc.1 true]
    simp only [Res.bind_ok, e1, e3, vecStack_over]
    rw [h1]
    simp only [Res.bind_ok, if_true]
    simp only [out2, e6, ef]
    rw [show max ((p.vector.map List.length).getD 0) ((p.matrix.map Mat.size1).getD 0) = numRows p from rfl,
      g1]
    rfl
  · simp only [joinNames]
    rw [g2, hrow]

/-! ## C12 -/

/-- **C12** (vectors): `apop_vector_stack` is concatenation; NULL on one side gives the other. -/
theorem C12_vector_stack (junk : α) (a b : Option (List α)) : vecStack junk a b = over a b :=
  vecStack_over junk a b

/-- **C12** (matrices, rows): whatever uninitialised memory holds, in place or not, stacking by rows
gives the rows of the first, then those of the second; widths that differ give NULL. -/
theorem C12_matrix_stack_rows (junk : α) (a b : Mat α) (ha : a.WF) (hb : b.WF) (inplace : Bool) :
    matStack junk (some a) (some b) 'r' inplace =
      .ok (if a.cols = b.cols then some ⟨a.rows ++ b.rows, a.cols⟩ else none) := by
  by_cases h : a.cols = b.cols
  · rw [if_pos h]; exact matStack_rows junk a b ha hb h inplace
  · rw [if_neg h]; simp [matStack, h]

/-- **C12** (matrices, columns): row i is row i of the first followed by row i of the second. -/
theorem C12_matrix_stack_cols (junk : α) (a b : Mat α) (ha : a.WF) (hb : b.WF) (inplace : Bool) :
    matStack junk (some a) (some b) 'c' inplace =
      .ok (if a.size1 = b.size1 then
        some ⟨List.zipWith (· ++ ·) a.rows b.rows, a.cols + b.cols⟩ else none) := by
  by_cases h : a.size1 = b.size1
  · rw [if_pos h]; exact matStack_cols junk a b ha hb h inplace
  · rw [if_neg h]; simp [matStack, h]

/-- **C12** (rows). For well-formed pages `p` (with a names structure and no error flag) and `q` of
matching widths, in place or not: the result has the rows of `p` then those of `q` in vector, weights,
matrix and text; the row names are joined, padded so that those of `q` line up; other names are those
of `p`, except that a *copy* loses the vector name (see C04). Without `inplace`, `m1` is unchanged;
with it, `m1` becomes the result and keeps its later pages. -/
theorem C12_stack_rows (junk : α) (p q : Page α) (ps qs : List (Page α)) (inplace : Bool) (n1 : Names)
    (hp : p.WF) (hq : q.WF) (he : p.error = none) (hn : p.names = some n1) (hg : n1.Good)
    (hc : RowCompat p q) :
    ∃ r n, stack junk (p :: ps) (q :: qs) 'r' inplace =
        .ok (if inplace then (r :: ps, r :: ps) else ([r], p :: ps)) ∧
      r.vector = over p.vector q.vector ∧ r.weights = over p.weights q.weights ∧
      r.matrix = matOver p.matrix q.matrix ∧ r.text = p.text ++ q.text ∧
      r.textsize.1 = p.textsize.1 + q.textsize.1 ∧ (q.text ≠ [] → r.textsize.2 = q.textsize.2) ∧
      (q.text = [] → r.textsize = p.textsize) ∧ r.error = none ∧ r.names = some n ∧
      n.row = joinNames n1.row (namesOf q.names Names.row) (numRows p) ∧
      n.col = n1.col ∧ n.text = n1.text ∧ n.vector = (if inplace then n1.vector else none) ∧ n.Good := by
  have hne : ¬ (('r' : Char) ≠ 'r' ∧ ('r' : Char) ≠ 'c') := by decide
  cases inplace with
  | true =>
    obtain ⟨r, n, h0, h1, h2, h3, h4, h5, h6, h6', h7, h8, h9, h10, h11, h12, h13, h14⟩ :=
      stackBody_rows junk p q p n1 n1 id hp hq hc rfl rfl rfl rfl rfl hn rfl rfl hg
    refine ⟨r, n, ?_, h1, h2, h3, h4, h5, h6, h6', h7.trans he, h8, h9, h10, h11, h12, h14⟩
    simp only [stack, hne, if_false, if_true, h0, Res.bind_ok]
  | false =>
    obtain ⟨c1, c2, c3, c4, c5, c6⟩ := Page.copyNames_lists n1
    obtain ⟨r, n, h0, h1, h2, h3, h4, h5, h6, h6', h7, h8, h9, h10, h11, h12, h13, h14⟩ :=
      stackBody_rows junk p q (Page.copyOf p) n1 (Page.copyNames n1) (fun _ => p.names) hp hq hc
        rfl rfl rfl rfl rfl (by simp [Page.copyOf, hn]) hn c1 c6
    refine ⟨r, n, ?_, h1, h2, h3, h4, h5, h6, h6', h7, h8, h9, h10.trans c2, h11.trans c3,
      h12.trans c4, h14⟩
    have hcopy : Page.copy junk [p] = .ok [Page.copyOf p] :=
      Page.copy_eq junk [p] (by simpa using hp) (by simpa using he)
    have hce : (Page.copyOf p).error = none := rfl
    simp only [stack, hne, if_false, hcopy, Res.bind_ok, hce, Option.isSome_none,
      Bool.false_eq_true, h0]

/-- **C12** (alignment): with at most as many row names as rows in `p`, the name of row i of `q` is
the name of row (rows of p) + i of the result. -/
theorem C12_row_names_aligned (a b : List CStr) (n i : Nat) (ha : a.length ≤ n) (hb : i < b.length) :
    (joinNames a b n)[n + i]? = b[i]? := by
  have : b ≠ [] := by intro h; simp [h] at hb
  rw [joinNames, if_neg this, List.getElem?_append_right (by simp; omega)]
  congr 1
  simp
  omega

/-- **C12** (NULL arguments). -/
theorem C12_stack_null (junk : α) (ps : List (Page α)) (posn : Char) (inplace : Bool)
    (hpos : posn = 'r' ∨ posn = 'c') (hwf : ∀ p ∈ ps, p.WF) (he : ∀ p ∈ ps, p.error = none) :
    stack junk [] ps posn inplace = .ok (ps.map Page.copyOf, []) ∧
    (ps ≠ [] → stack junk ps [] posn inplace = .ok (if inplace then ps else ps.map Page.copyOf, ps)) := by
  have hne : ¬ (posn ≠ 'r' ∧ posn ≠ 'c') := by
    rintro ⟨h1, h2⟩; rcases hpos with h | h
    · exact h1 h
    · exact h2 h
  have hcopy := Page.copy_eq junk ps hwf he
  refine ⟨?_, ?_⟩
  · simp only [stack, hne, if_false, hcopy, Res.bind_ok]
  · intro hps
    cases ps with
    | nil => exact absurd rfl hps
    | cons a as => cases inplace <;> simp [stack, hne, hcopy]

/-- **C12** (finding): matrices of different widths: the documentation promises error 'd'; the result
has *no matrix* (also in place, where the caller's matrix is lost) and no error flag. -/
theorem C12_width_mismatch_drops_matrix (junk : α) (p q : Page α) (n1 : Names) (a b : Mat α)
    (hp : p.matrix = some a) (hq : q.matrix = some b) (hn : p.names = some n1)
    (hab : a.cols ≠ b.cols) (hqt : q.text = []) (hqn : q.names = none) :
    ∃ r, stackBody junk p q p id 'r' = .ok r ∧ r.matrix = none ∧ r.error = p.error := by
  refine ⟨{ p with matrix := none, vector := vecStack junk p.vector q.vector
                   weights := vecStack junk p.weights q.weights }, ?_, rfl, rfl⟩
  unfold stackBody
  simp [hqn, matStack, hp, hq, hab, stackText, hqt, stackNames]

/-- **C12** (text width mismatch): error 'd', text unchanged. -/
theorem C12_text_mismatch (q out : Page α) (h1 : out.text ≠ []) (h2 : q.text ≠ [])
    (h3 : q.textsize.2 ≠ out.textsize.2) :
    stackText 'r' out q = .ok ({ out with error := some 'd' }, false) := by
  simp [stackText, h1, h2, h3]

/-- **C12** (finding): a first set without a names structure and a second one with row names: NULL
dereference. -/
theorem C12_null_names_ub (junk : α) (p q : Page α) (n2 : Names) (hp : p.WF) (hq : q.WF)
    (he : p.error = none) (hn : p.names = none) (hqn : q.names = some n2) (hr : n2.row ≠ [])
    (hc : RowCompat p q) : stack junk [p] [q] 'r' false = .ub := by
  have hne : ¬ (('r' : Char) ≠ 'r' ∧ ('r' : Char) ≠ 'c') := by decide
  have hcopy : Page.copy junk [p] = .ok [Page.copyOf p] :=
    Page.copy_eq junk [p] (by simpa using hp) (by simpa using he)
  have hce : (Page.copyOf p).error = none := rfl
  simp only [stack, hne, if_false, hcopy, Res.bind_ok, hce, Option.isSome_none, Bool.false_eq_true]
  have hcn : (Page.copyOf p).names.isNone = false := by simp [Page.copyOf]
  have : stackBody junk p q (Page.copyOf p) (fun _ => p.names) 'r' = .ub := by
    unfold stackBody
    have hne : ¬ ('r' : Char) = 'c' := by decide
    simp only [hcn, Bool.false_eq_true, and_false, hne, if_false, if_true, Res.bind_ok]
    rw [show (Page.copyOf p).matrix = p.matrix from rfl,
      matStack_over junk p.matrix q.matrix hp.1 hq.1 hc.1 true]
    simp only [Res.bind_ok]
    obtain ⟨ts, h1, -⟩ := stackText_rows
      { Page.copyOf p with matrix := matOver p.matrix q.matrix
                           vector := vecStack junk (Page.copyOf p).vector q.vector
                           weights := vecStack junk (Page.copyOf p).weights q.weights } q
      hp.2.1 hq.2.1 hc.2
    rw [h1]
    simp [hn, hqn, stackNames, hr]
  rw [this]; rfl

/-! ### columns -/

/-- The columns that `q` contributes: its vector, if `p` has one too, then its matrix. -/
def newColumns (p q : Page α) : Option (Mat α) :=
  matBeside (if p.vector.isSome then q.vector.map asColumn else none) q.matrix

/-- Can be stacked by columns: equal heights where both have the part. -/
def ColCompat (p q : Page α) : Prop :=
  (∀ a b, p.matrix = some a → q.matrix = some b → a.size1 = b.size1) ∧
  (∀ a v, p.matrix = some a → q.vector = some v → p.vector ≠ none → a.size1 = v.length) ∧
  (∀ a v, q.matrix = some a → q.vector = some v → p.vector ≠ none → a.size1 = v.length) ∧
  (p.text ≠ [] → q.text ≠ [] → p.textsize.1 = q.textsize.1)

theorem asColumn_wf (v : List α) : (asColumn v).WF := by
  intro r hr
  simp [asColumn] at hr
  obtain ⟨x, -, rfl⟩ := hr
  rfl

theorem matBeside_wf {a b : Option (Mat α)} (ha : ∀ m, a = some m → m.WF) (hb : ∀ m, b = some m → m.WF)
    : ∀ m, matBeside a b = some m → m.WF := by
  intro m hm
  cases a with
  | none => exact hb m (by simpa [matBeside] using hm)
  | some a =>
    cases b with
    | none => exact ha m (by simpa [matBeside] using hm)
    | some b =>
      simp only [matBeside, Option.some.injEq] at hm
      subst hm
      intro r hr
      obtain ⟨i, hi, rfl⟩ := List.mem_iff_getElem.1 hr
      simp only [List.length_zipWith] at hi
      simp only [List.getElem_zipWith, List.length_append]
      rw [ha a rfl _ (List.getElem_mem (by omega)), hb b rfl _ (List.getElem_mem (by omega))]

theorem matBeside_size {a b : Option (Mat α)} {m x y : Mat α} (h : matBeside a b = some m)
    (hs : ∀ x y, a = some x → b = some y → x.size1 = y.size1) :
    (∀ x, a = some x → x.size1 = m.size1) ∧ (∀ y, b = some y → y.size1 = m.size1) := by
  cases a with
  | none => simp [matBeside] at h; subst h; simp
  | some a =>
    cases b with
    | none => simp [matBeside] at h; subst h; simp
    | some b =>
      simp only [matBeside, Option.some.injEq] at h
      have := hs a b rfl rfl
      unfold Mat.size1 at this ⊢
      subst h
      simp [this]

theorem matBeside_assoc (a b c : Option (Mat α)) :
    matBeside (matBeside a b) c = matBeside a (matBeside b c) := by
  cases a <;> cases b <;> cases c <;> try rfl
  simp only [matBeside, Option.some.injEq, Mat.mk.injEq]
  refine ⟨?_, by omega⟩
  apply List.ext_getElem (by simp [Nat.min_assoc])
  intro i h1 h2
  simp

theorem stackText_cols (out q : Page α) (ho : out.TextWF) (hoz : out.textsize.1 = 0 ↔ out.textsize.2 = 0)
    (hq : q.TextWF) (hc : out.text ≠ [] → q.text ≠ [] → out.textsize.1 = q.textsize.1) :
    ∃ ts nm, stackText 'c' out q = .ok ({ out with
        text := if out.text = [] then q.text else if q.text = [] then out.text
          else List.zipWith (· ++ ·) out.text q.text
        textsize := ts, names := nm }, true) ∧
      ts.2 = out.textsize.2 + (if q.text = [] then 0 else q.textsize.2) ∧
      nm = (if q.text = [] then out.names else out.names.map (fun n => n.stack q.names (some 't') none)) := by
  by_cases h : q.text = []
  · refine ⟨out.textsize, out.names, ?_, by simp [h], by simp [h]⟩
    by_cases h2 : out.text = []
    · obtain ⟨v, m, n, t, ts, w, e⟩ := out
      simp only at h2
      simp [stackText, h, h2]
    · simp [stackText, h, h2]
  · have hcond : ¬ (out.text ≠ [] ∧ q.textsize.1 ≠ out.textsize.1) := by
      rintro ⟨h1, h2⟩; exact h2 (hc h1 h).symm
    have hne : ¬ ('c' : Char) = 'r' := by decide
    refine ⟨(q.textsize.1, out.textsize.2 + q.textsize.2),
      out.names.map (fun n => n.stack q.names (some 't') none), ?_, by simp [h], by simp [h]⟩
    simp only [stackText, h, hne, if_false, hcond]
    have hlen : (growText out.text q.textsize.1 (out.textsize.2 + q.textsize.2)).length
        = q.text.length := by
      simp only [growText, List.length_append, List.length_map, List.length_take, List.length_replicate]
      rw [hq.1]; omega
    have hrows : ∀ r ∈ growText out.text q.textsize.1 (out.textsize.2 + q.textsize.2),
        r.length = out.textsize.2 + q.textsize.2 := by
      intro r hr
      simp only [growText, List.mem_append, List.mem_map, List.mem_replicate] at hr
      rcases hr with ⟨x, hx, rfl⟩ | ⟨-, rfl⟩
      · have := ho.2 x (List.mem_of_mem_take hx)
        simp [this]
      · simp
    rw [putTextCols_eq q.text out.textsize.2 q.textsize.2 hq.2 0 _ (by omega) hrows]
    simp only [Res.bind_ok, List.take_zero, List.nil_append, List.drop_zero]
    congr 3
    by_cases h2 : out.text = []
    · have hz : out.textsize.1 = 0 := by rw [← ho.1, h2]; rfl
      have hz2 := hoz.1 hz
      rw [if_pos h2, hz2, h2]
      apply zipWith_self_left
      · simp [growText, hq.1]
      · intro i x y _ _; simp
    · rw [if_neg h2]
      have e := hc h2 h
      have : growText out.text q.textsize.1 (out.textsize.2 + q.textsize.2) =
          out.text.map (· ++ List.replicate q.textsize.2 []) := by
        unfold growText
        rw [← e, ← ho.1]
        simp only [List.take_length, Nat.sub_self, List.replicate_zero, List.append_nil]
        apply List.map_congr_left
        intro r hr
        have := ho.2 r hr
        rw [List.take_of_length_le (by omega)]
        congr 2; omega
      rw [this]
      apply List.ext_getElem (by simp)
      intro i g1 g2
      simp only [List.length_zipWith, List.length_map] at g1 g2
      have := ho.2 _ (List.getElem_mem (l := out.text) (n := i) (by omega))
      simp [← this]

/-- **C12** (columns). For well-formed pages of matching heights, in place or not: each matrix row is
the row of `p`, then (if both have a vector) the vector entry of `q`, then the row of `q`; the vector is
that of `p`, or of `q` if `p` has none; weights are those of `p`; text rows are joined. -/
theorem C12_stack_cols (junk : α) (p q : Page α) (ps qs : List (Page α)) (inplace : Bool) (n1 n2 : Names)
    (hp : p.WF) (hq : q.WF) (he : p.error = none) (hn : p.names = some n1) (hn2 : q.names = some n2)
    (hc : ColCompat p q) :
    ∃ r, stack junk (p :: ps) (q :: qs) 'c' inplace =
        .ok (if inplace then (r :: ps, r :: ps) else ([r], p :: ps)) ∧
      r.vector = p.vector.or q.vector ∧ r.weights = p.weights ∧
      r.matrix = matBeside p.matrix (newColumns p q) ∧
      r.text = (if p.text = [] then q.text else if q.text = [] then p.text
          else List.zipWith (· ++ ·) p.text q.text) ∧
      r.error = none := by
  -- generic body lemma
  have body : ∀ (out : Page α) (o : Names) (f : Option Names → Option Names),
      out.vector = p.vector → out.matrix = p.matrix → out.weights = p.weights → out.text = p.text →
      out.textsize = p.textsize → out.names = some o → (∀ x, ∃ n, f (some x) = some n) →
      ∃ r, stackBody junk p q out f 'c' = .ok r ∧
        r.vector = p.vector.or q.vector ∧ r.weights = p.weights ∧
        r.matrix = matBeside p.matrix (newColumns p q) ∧
        r.text = (if p.text = [] then q.text else if q.text = [] then p.text
          else List.zipWith (· ++ ·) p.text q.text) ∧ r.error = out.error := by
    intro out o f e1 e2 e3 e4 e5 e6 ef
    obtain ⟨hpm, hpt, hpz⟩ := hp
    obtain ⟨hqm, hqt, -⟩ := hq
    obtain ⟨c1, c2, c3, c4⟩ := hc
    have hout : (if q.names.isSome ∧ out.names.isNone then { out with names := some Names.alloc } else out)
        = out := by simp [e6]
    -- first block
    have first : ∃ o', stackVecCol junk out q = .ok { out with
        vector := p.vector.or q.vector, names := some o'
        matrix := matBeside p.matrix (if p.vector.isSome then q.vector.map asColumn else none) } := by
      unfold stackVecCol
      cases hqv : q.vector with
      | none =>
        refine ⟨o, ?_⟩
        obtain ⟨v, m, n, t, ts, w, e⟩ := out
        simp only at e1 e2 e6
        subst e1; subst e2; subst e6
        cases p.matrix <;> cases p.vector <;> simp [matBeside]
      | some v2 =>
        simp only [e1]
        cases hpv : p.vector with
        | none =>
          simp only [hn2]
          refine ⟨(o.add n2.vector 'v').1, ?_⟩
          obtain ⟨v, m, n, t, ts, w, e⟩ := out
          simp only at e1 e2 e6
          subst e1; subst e2; subst e6
          cases p.matrix <;> simp [matBeside]
        | some v1 =>
          have := matStack_beside junk p.matrix (some (asColumn v2)) hpm
            (by intro m hm; cases hm; exact asColumn_wf v2)
            (by intro x y hx hy; cases hy
                have := c2 x v2 hx hqv (by simp [hpv])
                simpa [asColumn, Mat.size1] using this) true
          simp only [asColumn] at this
          simp only [e2, this, Res.bind_ok, e6, hn2, Option.map_some]
          by_cases hv : n2.vector = none ∧ n2.col ≠ []
          · rw [if_pos hv]
            exact ⟨((o.stack (some n2) (some 'c') (some 'v')).add (some [118]) 'c').1, by simp [asColumn]⟩
          · rw [if_neg hv]
            exact ⟨o.stack (some n2) (some 'c') (some 'v'), by simp [asColumn]⟩
    obtain ⟨o', hfirst⟩ := first
    let mid : Page α := { out with
        vector := p.vector.or q.vector, names := some o'
        matrix := matBeside p.matrix (newColumns p q) }
    have hvecwf : ∀ m, (if p.vector.isSome then q.vector.map asColumn else none) = some m → m.WF := by
      intro m hm
      split at hm
      · cases hqv : q.vector with
        | none => simp [hqv] at hm
        | some v => simp [hqv] at hm; subst hm; exact asColumn_wf v
      · simp at hm
    have hvs : ∀ x, (if p.vector.isSome then q.vector.map asColumn else none) = some x →
        ∃ v, q.vector = some v ∧ p.vector ≠ none ∧ x.size1 = v.length := by
      intro x hx
      split at hx
      · rename_i h
        cases hqv : q.vector with
        | none => simp [hqv] at hx
        | some v =>
          simp [hqv] at hx; subst hx
          exact ⟨v, rfl, by intro hh; simp [hh] at h, by simp [asColumn, Mat.size1]⟩
      · simp at hx
    have second : matStack junk (matBeside p.matrix (if p.vector.isSome then q.vector.map asColumn else none))
        q.matrix 'c' true = .ok (matBeside p.matrix (newColumns p q)) := by
      rw [matStack_beside junk _ q.matrix (matBeside_wf hpm hvecwf) hqm, matBeside_assoc]
      · rfl
      · intro x y hx hy
        have hsz := matBeside_size (x := x) (y := y) hx (by
          intro a b ha hb
          obtain ⟨v, hv1, hv2, hv3⟩ := hvs b hb
          rw [hv3]; exact c2 a v ha hv1 hv2)
        cases hpmat : p.matrix with
        | some a => rw [← hsz.1 a hpmat]; exact c1 a y hpmat hy
        | none =>
          cases hcol : (if p.vector.isSome then q.vector.map asColumn else none) with
          | none => rw [hpmat, hcol] at hx; simp [matBeside] at hx
          | some b =>
            obtain ⟨v, hv1, hv2, hv3⟩ := hvs b hcol
            rw [← hsz.2 b hcol, hv3]
            exact (c3 y v hy hv1 hv2).symm
    obtain ⟨ts, nm, h1, -, h3⟩ := stackText_cols mid q
      (by simp only [Page.TextWF, mid, e4, e5]; exact hpt)
      (by simp only [mid, e5]; exact hpz) hqt (by simp only [mid, e4, e5]; exact c4)
    have hnm : ∃ o2, nm = some o2 := by
      rw [h3]; by_cases h : q.text = [] <;> simp [h, mid]
    obtain ⟨o2, rfl⟩ := hnm
    obtain ⟨n1', hf⟩ := ef o2
    have hnames : ∃ n, stackNames 'c' (some n1') (some o2) q.names (max ((p.vector.map List.length).getD 0)
        ((p.matrix.map Mat.size1).getD 0)) ((p.matrix.map Mat.cols).getD 0) = .ok n := by
      rw [hn2]
      unfold stackNames
      simp only
      split <;> exact ⟨_, rfl⟩
    obtain ⟨n, hnames⟩ := hnames
    refine ⟨{ mid with
        text := if mid.text = [] then q.text else if q.text = [] then mid.text
          else List.zipWith (· ++ ·) mid.text q.text
        textsize := ts, names := n }, ?_, rfl, e3, rfl, by simp [mid, e4], rfl⟩
    unfold stackBody
    have hne : ¬ ('c' : Char) = 'r' := by decide
    simp only [hout, hne, if_false, if_true, hfirst, Res.bind_ok, second]
    rw [show (⟨p.vector.or q.vector, matBeside p.matrix (newColumns p q), some o', out.text,
      out.textsize, out.weights, out.error⟩ : Page α) = mid from rfl, h1]
    simp only [Res.bind_ok, if_true, hf, hnames]
  have hne : ¬ (('c' : Char) ≠ 'r' ∧ ('c' : Char) ≠ 'c') := by decide
  cases inplace with
  | true =>
    obtain ⟨r, h0, h1, h2, h3, h4, h5⟩ := body p n1 id rfl rfl rfl rfl rfl hn (fun x => ⟨x, rfl⟩)
    refine ⟨r, ?_, h1, h2, h3, h4, h5.trans he⟩
    simp only [stack, hne, if_false, if_true, h0, Res.bind_ok]
  | false =>
    obtain ⟨r, h0, h1, h2, h3, h4, h5⟩ := body (Page.copyOf p) (Page.copyNames n1) (fun _ => p.names)
      rfl rfl rfl rfl rfl (by simp [Page.copyOf, hn]) (fun x => ⟨n1, hn⟩)
    refine ⟨r, ?_, h1, h2, h3, h4, h5⟩
    have hcopy : Page.copy junk [p] = .ok [Page.copyOf p] :=
      Page.copy_eq junk [p] (by simpa using hp) (by simpa using he)
    have hce : (Page.copyOf p).error = none := rfl
    simp only [stack, hne, if_false, hcopy, Res.bind_ok, hce, Option.isSome_none,
      Bool.false_eq_true, h0]

/-- **C12** (finding): stacking columns when both sets have a named vector and named columns. The
vector of `m2` becomes column 2, but its name is not added to the column names (`apop_name_stack` with
typeadd 'v' overwrites the *vector* name of the target): the vector of `m1` is now called "vec", and
looking up "five" finds the data of "vec". -/
theorem C12_vector_name_misplaced :
    let p : Page Nat := ⟨some [1], some ⟨[[2, 3]], 2⟩,
      some (Names.alloc.runAdds [(some (str "y"), 'v'), (some (str "a"), 'c'), (some (str "b"), 'c')]).1,
      [], (0, 0), none, none⟩
    let q : Page Nat := ⟨some [4], some ⟨[[5]], 1⟩,
      some (Names.alloc.runAdds [(some (str "vec"), 'v'), (some (str "five"), 'c')]).1, [], (0, 0), none, none⟩
    ∃ r n, stack 0 [p] [q] 'c' false = .ok ([r], [p]) ∧ r.names = some n ∧
      r.matrix = some ⟨[[2, 3, 4, 5]], 4⟩ ∧ n.col = [str "a", str "b", str "five"] ∧
      n.vector = some (str "vec") ∧ n.find (some (str "five")) 'c' = .ok 2 := by
  refine ⟨_, _, rfl, rfl, by decide +kernel, by decide +kernel, by decide +kernel, by decide +kernel⟩

/-- Non-vacuity: the demo page stacked on itself both ways meets the hypotheses. -/
example : RowCompat Page.demoPage Page.demoPage ∧ ColCompat Page.demoPage Page.demoPage := by
  refine ⟨⟨?_, fun _ _ => rfl⟩, ?_, ?_, ?_, fun _ _ => rfl⟩
  · intro a b h1 h2; rw [h1] at h2; cases h2; rfl
  · intro a b h1 h2; rw [h1] at h2; cases h2; rfl
  · intro a v h1 h2 _; cases h1; cases h2; rfl
  · intro a v h1 h2 _; cases h1; cases h2; rfl
example : (stack 0 [Page.demoPage] [Page.demoPage] 'r' false).map (fun r => r.1.map (fun p => p.matrix)) =
    .ok [some ⟨[[1, 2, 3], [4, 5, 6], [1, 2, 3], [4, 5, 6]], 3⟩] := by decide +kernel
example : (stack 0 [Page.demoPage] [Page.demoPage] 'c' true).map (fun r => r.1.map (fun p => p.matrix)) =
    .ok [some ⟨[[1, 2, 3, 1, 1, 2, 3], [4, 5, 6, 2, 4, 5, 6]], 7⟩] := by decide +kernel

end Apop.Stack
