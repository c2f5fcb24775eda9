import Verif.Out.ReadProps

/-! # A printed page with a vector and a matrix (C117) -/

namespace Apop.Out

open Apop.Parse

/-- A page with a vector named `vname` and a matrix of `w` columns, named. -/
def vpage (vname : Option CStr) (cols : List CStr) (v : List ℚ) (w : Nat) (M : List (List ℚ)) : PSet where
  vname := vname
  cols := cols
  vec := some (v.map some)
  mat := some ⟨w, M.map (·.map some)⟩

/-- The sizes: at least one column, rows of that width, a vector as long as there are rows. -/
structure VSizes (v : List ℚ) (w : Nat) (M : List (List ℚ)) : Prop where
  w0 : w ≠ 0
  rows : ∀ r ∈ M, r.length = w
  vec : v.length = M.length
  numv : ∀ x ∈ v, InRange x
  numm : ∀ r ∈ M, ∀ x ∈ r, InRange x

/-- One line: between the vector's element and the first of the matrix there are two delimiters. -/
theorem vrow_print (d : CStr) {vname : Option CStr} {cols : List CStr} {v : List ℚ} {w : Nat} {M : List (List ℚ)} (hs : VSizes v w M) (j : Nat) (hj : j < M.length) :
    cat (printRow d false (vpage vname cols v w M) j) = .ok (num (v[j]?.getD 0) ++ d ++ d ++ joinD d ((M[j]).map num) ++ [10]) := by
  have hMj : M[j]? = some M[j] := List.getElem?_eq_getElem hj
  have hjv : j < v.length := by rw [hs.vec]; exact hj
  have hmat : printMat d (vpage vname cols v w M) j = sepBy d (((M[j]).map num).map .ok) := by
    simp only [printMat, vpage, List.getElem?_map, hMj, Option.map_some]
    rw [map_pFn (hs.numm _ (List.getElem_mem hj))]
  have hvec : printVec d false (vpage vname cols v w M) j = [.ok (num v[j]), .ok d, .ok d] := by
    simp only [printVec, vpage, List.getElem?_map, List.getElem?_eq_getElem hjv, Option.map_some, pFn_num (hs.numv _ (List.getElem_mem hjv)), ne_eq, hs.w0, not_false_eq_true,
      if_true]
    rfl
  have hrn : printRowname d (vpage vname cols v w M) j = [] := rfl
  have ht : printText d false (vpage vname cols v w M) j = [] := rfl
  have hw : printWeight d false (vpage vname cols v w M) j = [] := rfl
  rw [printRow, hvec, hrn, hmat, ht, hw]
  simp only [List.cons_append, List.nil_append, List.append_nil, cat, cat_append, cat_sepBy, Res.bind, List.getElem?_eq_getElem hjv, Option.getD_some, List.append_assoc]

theorem vhead_print (d : CStr) {vname : CStr} {cols : List CStr} {v : List ℚ} {w : Nat} {M : List (List ℚ)} (hc : cols ≠ []) :
    cat (printHead d false (vpage (some vname) cols v w M)) = .ok (vname ++ [32, 32] ++ d ++ joinD d cols ++ [10]) := by
  have h2 : printCols d false (vpage (some vname) cols v w M) = .ok ([32] ++ [32] ++ d) :: sepBy d (cols.map .ok) := by
    simp [printCols, vpage, hc, aPipe]
  have h3 : printTexts d false (vpage (some vname) cols v w M) = [] := rfl
  have h1 : printCorner (vpage (some vname) cols v w M) = [] := by simp [printCorner, vpage]
  have h4 : (vpage (some vname) cols v w M).hasHead = true := by simp [PSet.hasHead, vpage]
  have h5 : printTitle (vpage (some vname) cols v w M) = [] := rfl
  have h6 : printVname (vpage (some vname) cols v w M) = vname := rfl
  rw [printHead, h1, h2, h3, h4, h5, h6]
  simp only [List.cons_append, List.nil_append, List.append_nil, if_true, cat, cat_append, cat_sepBy, Res.bind, List.append_assoc]

/-- The lines, as written and as read. -/
def vlines (d : UInt8) (v : List ℚ) (M : List (List ℚ)) (f : Nat → List CStr) : Lines :=
  (List.range M.length).map (fun j => (num (v[j]?.getD 0) ++ [d] ++ [d] ++ joinD [d] ((M[j]?.getD []).map num) ++ [10], f j))

theorem vfile (d : UInt8) {vname : CStr} {cols : List CStr} {v : List ℚ} {w : Nat} {M : List (List ℚ)} (hs : VSizes v w M) (hc : cols ≠ []) (f : Nat → List CStr) :
    printCore [d] false (some (vpage (some vname) cols v w M)) = .ok (vname ++ [32, 32] ++ [d] ++ joinD [d] cols ++ [10] ++ (vlines d v M f).bytes) := by
  have hend : (vpage (some vname) cols v w M).rowend = M.length := by simp [PSet.rowend, vpage]
  rw [printCore, cat_append, vhead_print [d] hc, hend, cat_flatMap_ok (g := fun j => num (v[j]?.getD 0) ++ [d] ++ [d] ++ joinD [d] ((M[j]?.getD []).map num) ++ [10]) _ (by
    intro j hj
    have hj := List.mem_range.1 hj
    rw [vrow_print [d] hs j hj, List.getElem?_eq_getElem hj]
    rfl)]
  simp only [Res.bind, vlines, Lines.bytes, List.flatMap_map]

theorem head_item {delims : CStr} {d : UInt8} (hD : Delims delims d) {vname : CStr} (hv : Name delims d vname) (hv0 : vname ≠ []) :
    Plain delims (vname ++ [32, 32]) ∧ strip (vname ++ [32, 32]) = vname := by
  refine ⟨plain_append hv.1 (plain_blanks hD 2), ?_⟩
  have ht := hv.2.1
  -- the first character is no blank, for otherwise stripping would shorten the name
  have hhead : vname.dropWhile (· ∈ [(9 : UInt8), 13, 32]) = vname := by
    have h1 : (strip vname).length ≤ (vname.dropWhile (· ∈ [(9 : UInt8), 13, 32])).length := by
      unfold strip
      rw [List.length_reverse]
      refine Nat.le_trans (List.dropWhile_suffix _).length_le ?_
      rw [List.length_reverse]
    rw [ht] at h1
    exact (List.dropWhile_suffix _).eq_of_length_le h1
  cases vname with
  | nil => exact absurd rfl hv0
  | cons c t =>
    have hc : c ∉ [(9 : UInt8), 13, 32] := by
      intro hc
      rw [List.dropWhile_cons_of_pos (by simpa using hc)] at hhead
      have := congrArg List.length hhead
      have h2 := (List.dropWhile_suffix (l := t) (· ∈ [(9 : UInt8), 13, 32])).length_le
      rw [this, List.length_cons] at h2
      omega
    unfold Tight strip at ht
    rw [hhead] at ht
    unfold strip
    rw [List.cons_append, List.dropWhile_cons_of_neg (by simpa using hc), ← List.cons_append, List.reverse_append]
    simp only [List.reverse_cons, List.reverse_nil, List.nil_append, List.cons_append]
    rw [List.dropWhile_cons_of_pos (by decide), List.dropWhile_cons_of_pos (by decide)]
    rw [List.reverse_cons] at ht
    exact ht

/-- Where the delimiter is white space, two of them count as one. -/
theorem vline_white {delims : CStr} {d : UInt8} (hD : Delims delims d) (hw : WhiteD d) (x : CStr) (ys : List CStr) (hx : Plain delims x ∧ strip x ≠ [])
    (hy : ∀ s ∈ ys, Plain delims s ∧ strip s ≠ []) (hne : ys ≠ []) : IsLine delims (x ++ [d] ++ [d] ++ joinD [d] ys ++ [10]) (strip x :: ys.map strip) := by
  intro rest pos
  have hWD : classify delims (some d) = .WD := by
    have : (d = 32 ∨ d = 13 ∨ d = 9 ∨ d = 0) := by rcases hw with h | h <;> simp [h]
    simp only [classify]
    rw [if_pos this]
    simp [isDelim, hD.mem]
  have := white_fields_run hD.good rest (([d, d], x.map pieceOf) :: ys.map (fun s => ([d], s.map pieceOf)))
    (by
      intro y hy'
      simp only [List.mem_cons, List.mem_map] at hy'
      rcases hy' with rfl | ⟨s, hs, rfl⟩
      · exact pieces_ok hx.1
      · exact pieces_ok (hy s hs).1)
    (by
      intro y hy'
      simp only [List.mem_cons, List.mem_map] at hy'
      rcases hy' with rfl | ⟨s, hs, rfl⟩
      · exact blank_strip hx.2
      · exact blank_strip (hy s hs).2)
    (by
      intro y hy'
      simp only [List.mem_cons, List.mem_map] at hy'
      rcases hy' with rfl | ⟨s, hs, rfl⟩
      · exact ⟨by simp, by intro c hc; simp at hc; rw [hc]; exact hWD⟩
      · exact ⟨by simp, by intro c hc; simp at hc; rw [hc]; exact hWD⟩)
    (by simp) [] (by simp) [] false pos (Or.inl rfl)
  have hwr : writeWhite [] (([d, d], x.map pieceOf) :: ys.map (fun s => ([d], s.map pieceOf))) = x ++ [d] ++ [d] ++ joinD [d] ys := by
    cases ys with
    | nil => exact absurd rfl hne
    | cons y ys =>
      have hs : ∀ (g : List UInt8 × List Piece) (fs : List (List UInt8 × List Piece)), writeWhite [d, d] (g :: fs) = [d, d] ++ writeWhite [] (g :: fs) := by
        intro g fs
        cases fs <;> simp [writeWhite]
      have hj := join_writeWhite d (y :: ys)
      simp only [List.map_cons] at hj ⊢
      rw [writeWhite, hs, ← hj, pieces_write]
      simp
  rw [hwr] at this
  have hmap : (([d, d], x.map pieceOf) :: ys.map (fun s => ([d], s.map pieceOf))).map (fun x => fieldOf x.2) = strip x :: ys.map strip := by
    rw [List.map_cons, field_strip, List.map_map]
    congr 1
    apply List.map_congr_left
    intro s _
    exact field_strip s
  rw [hmap] at this
  have hl : (x ++ [d] ++ [d] ++ joinD [d] ys ++ [10]) ++ rest = x ++ [d] ++ [d] ++ joinD [d] ys ++ 10 :: rest := by simp
  rw [hl, show ({} : A) = ⟨[], none, false, false⟩ from rfl, this]
  refine ⟨by simp [mk], ?_⟩
  simp only [List.length_append, List.length_singleton, Prod.mk.injEq, true_and]
  omega

section
variable {delims : CStr} {d : UInt8} {vname : CStr} {cols : List CStr} {v : List ℚ} {w : Nat} {M : List (List ℚ)}

/-- The names of the columns and of the vector can be read back. -/
structure VNames (delims : CStr) (d : UInt8) (vname : CStr) (cols : List CStr) : Prop where
  vec : Name delims d vname ∧ vname ≠ []
  cols : ∀ s ∈ cols, Name delims d s ∧ s ≠ []

theorem vhead_isLine (hD : Delims delims d) (hn : VNames delims d vname cols) (hc : cols ≠ []) :
    IsLine delims (vname ++ [32, 32] ++ [d] ++ joinD [d] cols ++ [10]) (vname :: cols) := by
  obtain ⟨h1, h2⟩ := head_item hD hn.vec.1 hn.vec.2
  have := line_isLine hD ((vname ++ [32, 32]) :: cols)
    (by intro s hs; rcases List.mem_cons.1 hs with rfl | h; exacts [h1, (hn.cols s h).1.1]) (by simp)
    (Or.inl (by
      intro s hs
      rcases List.mem_cons.1 hs with rfl | h
      · rw [h2]; exact hn.vec.2
      · rw [(hn.cols s h).1.2.1]; exact (hn.cols s h).2))
  rw [joinD_cons [d] _ cols hc, List.map_cons, h2] at this
  have hcs : cols.map strip = cols := by
    conv_rhs => rw [← List.map_id cols]
    apply List.map_congr_left
    intro s hs
    exact (hn.cols s hs).1.2.1
  rw [hcs] at this
  exact this

theorem vno255 (hD : Delims delims d) (hs : VSizes v w M) (f : Nat → List CStr) : (255 : UInt8) ∉ (vlines d v M f).bytes := by
  simp only [vlines, Lines.bytes, List.flatMap_map, List.mem_flatMap, List.mem_range, not_exists, not_and]
  intro j hj h
  have hd : (255 : UInt8) ≠ d := by rintro rfl; exact hD.good.2.2.2 hD.mem
  have hjv : j < v.length := by rw [hs.vec]; exact hj
  simp only [List.mem_append, List.mem_singleton] at h
  rcases h with (((h | h) | h) | h) | h
  · rw [List.getElem?_eq_getElem hjv] at h
    have := plain_num hD (num_chars (hs.numv _ (List.getElem_mem hjv))).1 255 h
    simp at this
  · exact hd h
  · exact hd h
  · refine no255_join hD _ ?_ h
    intro s hs'
    rw [List.getElem?_eq_getElem hj] at hs'
    obtain ⟨x, hx, rfl⟩ := List.mem_map.1 hs'
    exact plain_num hD (num_chars (hs.numm _ (List.getElem_mem hj) x hx)).1
  · revert h; decide

theorem vnames_strs (hn : VNames delims d vname cols) : strsOf (vname :: cols) = vname :: cols := by
  unfold strsOf
  conv_rhs => rw [← List.map_id (vname :: cols)]
  apply List.map_congr_left
  intro s hs
  have hN : Plain delims s ∧ Tight s := by
    rcases List.mem_cons.1 hs with rfl | h
    · exact ⟨hn.vec.1.1, hn.vec.1.2.1⟩
    · exact ⟨(hn.cols s h).1.1, (hn.cols s h).1.2.1⟩
  have := no_nul hN.1
  rw [hN.2] at this
  exact this

/-- What is read of row `j`. -/
def vrecord (v : List ℚ) (M : List (List ℚ)) (j : Nat) : List CStr := strip (num (v[j]?.getD 0)) :: (M[j]?.getD []).map (fun x => strip (num x))

theorem vlines_ok (hD : Delims delims d) (hw : WhiteD d) (hs : VSizes v w M) : (vlines d v M (vrecord v M)).Ok delims := by
  intro x hx
  obtain ⟨j, hj, rfl⟩ := List.mem_map.1 hx
  have hj := List.mem_range.1 hj
  have hjv : j < v.length := by rw [hs.vec]; exact hj
  refine ⟨by simp, ?_⟩
  have hMj := List.getElem?_eq_getElem hj
  have hvj := List.getElem?_eq_getElem hjv
  have hx := num_chars (hs.numv _ (List.getElem_mem hjv))
  simp only [vrecord, hMj, hvj, Option.getD_some]
  have := vline_white hD hw (num v[j]) ((M[j]).map num) ⟨plain_num hD hx.1, hx.2⟩
    (by
      intro s hs'
      obtain ⟨y, hy, rfl⟩ := List.mem_map.1 hs'
      have := num_chars (hs.numm _ (List.getElem_mem hj) y hy)
      exact ⟨plain_num hD this.1, this.2⟩)
    (by
      intro h
      rw [List.map_eq_nil_iff] at h
      have := hs.rows _ (List.getElem_mem hj)
      rw [h] at this
      exact hs.w0 this.symm)
  rw [List.map_map] at this
  exact this

theorem vstrs (hD : Delims delims d) (hs : VSizes v w M) (j : Nat) (hj : j < M.length) : strsOf (vrecord v M j) = vrecord v M j := by
  have hjv : j < v.length := by rw [hs.vec]; exact hj
  unfold strsOf
  conv_rhs => rw [← List.map_id (vrecord v M j)]
  apply List.map_congr_left
  intro s hs'
  simp only [vrecord, List.mem_cons, List.mem_map, List.getElem?_eq_getElem hj, List.getElem?_eq_getElem hjv, Option.getD_some] at hs'
  rcases hs' with rfl | ⟨x, hx, rfl⟩
  · exact no_nul (plain_num hD (num_chars (hs.numv _ (List.getElem_mem hjv))).1)
  · exact no_nul (plain_num hD (num_chars (hs.numm _ (List.getElem_mem hj) x hx)).1)

theorem vrecords (hD : Delims delims d) (hs : VSizes v w M) : (vlines d v M (vrecord v M)).records = (List.range M.length).map (vrecord v M) := by
  unfold Lines.records vlines
  rw [List.filter_eq_self.2 (by
    intro x hx
    obtain ⟨j, _, rfl⟩ := List.mem_map.1 hx
    simp [vrecord]), List.map_map]
  apply List.map_congr_left
  intro j hj
  exact vstrs hD hs j (List.mem_range.1 hj)

/-- **C117: a vector and a matrix, with the default delimiters.** Where the delimiter is a tab, a page with a vector and a matrix, all columns named, is read again as one matrix:
its first column is the vector, under the vector's name, the others are the matrix's. -/
theorem C117_vector_tab {bs : Nat} (hbs : 0 < bs) (hD : Delims delims d) (hw : WhiteD d) (hs : VSizes v w M) (hl : cols.length = w) (hn : VNames delims d vname cols) (hM : M ≠ []) :
    ∃ file, printCore [d] false (some (vpage (some vname) cols v w M)) = .ok file ∧ ∀ (fuel : Nat), file.length + M.length + 2 < fuel →
      textToData readDec (fileSeq bs file) delims fuel 0 true =
        .done { colnames := vname :: cols, rows := (v.zip M).map (fun p => (p.1 :: p.2).map (fun x => some (some (readBack x)))) } := by
  have hc : cols ≠ [] := by rintro rfl; exact hs.w0 hl.symm
  refine ⟨_, vfile d hs hc (vrecord v M), ?_⟩
  intro fuel hf
  have hok := vlines_ok hD hw hs
  have hrec := vrecords hD hs
  have h255 := vno255 hD hs (vrecord v M)
  have hlenrec : ∀ s ∈ (List.range M.length).map (vrecord v M), s.length = cols.length + 1 := by
    intro s hs1
    obtain ⟨j, hj, rfl⟩ := List.mem_map.1 hs1
    have hj := List.mem_range.1 hj
    simp only [vrecord, List.getElem?_eq_getElem hj, Option.getD_some, List.length_cons, List.length_map, hs.rows _ (List.getElem_mem hj), hl]
  have hlen : (vlines d v M (vrecord v M)).length = M.length := by simp [vlines]
  have hrows : ((List.range M.length).map (vrecord v M)).map (fun s => (s.drop 0).map (fun x => some (readDec x))) =
      (v.zip M).map (fun p => (p.1 :: p.2).map (fun x => some (some (readBack x)))) := by
    apply List.ext_getElem
    · simp [hs.vec]
    · intro j h1 h2
      simp only [List.length_map, List.length_range] at h1
      have hjv : j < v.length := by rw [hs.vec]; exact h1
      rw [List.getElem_map, List.getElem_map, List.getElem_range, List.getElem_map, List.getElem_zip]
      simp only [List.drop_zero, vrecord, List.getElem?_eq_getElem h1, List.getElem?_eq_getElem hjv, Option.getD_some, List.map_cons, List.map_map]
      congr 1
      · rw [num_read (hs.numv _ (List.getElem_mem hjv))]
      · apply List.map_congr_left
        intro x hx
        simp only [Function.comp_apply]
        rw [num_read (hs.numm _ (List.getElem_mem h1) x hx)]
  cases hls : vlines d v M (vrecord v M) with
  | nil => rw [hls] at hlen; exact absurd (List.length_eq_zero_iff.1 hlen.symm) hM
  | cons l ls =>
    obtain ⟨ln, fields⟩ := l
    rw [hls] at hok hrec h255 hf hlen
    have hfne : fields ≠ [] := by
      have : (ln, fields) ∈ vlines d v M (vrecord v M) := by rw [hls]; simp
      obtain ⟨j, _, h⟩ := List.mem_map.1 this
      simp only [Prod.mk.injEq] at h
      rw [← h.2]
      simp [vrecord]
    have hrec0 : Lines.records ((ln, fields) :: ls) = strsOf fields :: Lines.records ls := records_cons ls hfne
    rw [hrec0] at hrec
    have hf0 : (strsOf fields).length = cols.length + 1 := hlenrec _ (by rw [← hrec]; simp)
    rw [strsOf_length] at hf0
    have := C45_matrix readDec hbs hD.good.2.2.2 0 (hbl := []) (hln := vname ++ [32, 32] ++ [d] ++ joinD [d] cols ++ [10]) (names := vname :: cols)
      ⟨by simp [Lines.Ok], by simp, vhead_isLine hD hn hc, by simp⟩ (bl := []) (ln := ln) (fields := fields)
      ⟨by simp [Lines.Ok], by simp, (hok _ List.mem_cons_self).2, hfne⟩ ls (fun x hx => hok x (by simp [hx])) [] [] (nil_isTail _)
      (vname ++ [32, 32] ++ [d] ++ joinD [d] cols ++ [10] ++ Lines.bytes ((ln, fields) :: ls)) (by simp [Lines.bytes])
      (by
        intro h
        rcases List.mem_append.1 h with h | h
        · have hp := head_item hD hn.vec.1 hn.vec.2
          have := no255_join hD ((vname ++ [32, 32]) :: cols) (by
            intro s hs; rcases List.mem_cons.1 hs with rfl | h; exacts [hp.1, (hn.cols s h).1.1])
          rw [joinD_cons [d] _ cols hc] at this
          rcases List.mem_append.1 h with h | h
          · exact this h
          · revert h; decide
        · exact h255 h)
      (by rw [hf0]; rfl) (by simp)
      (by
        intro s hs1
        simp only [tailRec, if_true, List.append_nil] at hs1
        rw [hf0]
        apply hlenrec
        rw [← hrec]
        simp [hs1])
      fuel (by
        rw [List.length_cons] at hlen
        simp only [List.length_nil, Nat.add_zero]
        omega)
    rw [this]
    simp only [tailRec, if_true, List.append_nil, hrec, vnames_strs hn]
    rw [hrows]
    simp

/-- **C117 refuted for other delimiters: the file cannot be read.** With a comma, the two delimiters after the vector's element stand for an empty item, so that every line
has one more than there are names, and `apop_text_to_data` reads names past the end of the list. -/
theorem C117_vector_comma_refuted {bs : Nat} (hbs : 0 < bs) (hD : Delims delims d) (hw : ¬WhiteD d) (hs : VSizes v w M) (hl : cols.length = w) (hn : VNames delims d vname cols)
    (hM : M ≠ []) :
    ∃ file, printCore [d] false (some (vpage (some vname) cols v w M)) = .ok file ∧ ∀ (fuel : Nat), file.length + 2 < fuel →
      textToData readDec (fileSeq bs file) delims fuel 0 true = .ub := by
  have hc : cols ≠ [] := by rintro rfl; exact hs.w0 hl.symm
  refine ⟨_, vfile d hs hc (vrecord v M), ?_⟩
  intro fuel hf
  obtain ⟨r, M', rfl⟩ := List.exists_cons_of_ne_nil hM
  have h255 := vno255 hD hs (vrecord v (r :: M'))
  have hv0 : 0 < v.length := by rw [hs.vec]; simp
  have hx := num_chars (hs.numv _ (List.getElem_mem hv0))
  have hr := hs.rows r (by simp)
  have hrne : r.map num ≠ [] := by
    intro h
    rw [List.map_eq_nil_iff] at h
    rw [h] at hr
    exact hs.w0 hr.symm
  have hline := line_isLine hD (num v[0] :: [] :: r.map num)
    (by
      intro s hs'
      simp only [List.mem_cons, List.mem_map] at hs'
      rcases hs' with rfl | rfl | ⟨x, hx', rfl⟩
      · exact plain_num hD hx.1
      · intro c hc; simp at hc
      · exact plain_num hD (num_chars (hs.numm r (by simp) x hx')).1)
    (by simp) (Or.inr ⟨hw, by simp⟩)
  rw [joinD_cons [d] _ _ (by simp), joinD_cons [d] _ _ hrne] at hline
  have hsplit : (vlines d v (r :: M') (vrecord v (r :: M'))).bytes = (num v[0] ++ [d] ++ ([] ++ [d] ++ joinD [d] (r.map num)) ++ [10]) ++
      (List.range M'.length).flatMap (fun j => num (v[j + 1]?.getD 0) ++ [d] ++ [d] ++ joinD [d] ((M'[j]?.getD []).map num) ++ [10]) := by
    simp only [vlines, Lines.bytes, List.flatMap_map, List.length_cons, List.range_succ_eq_map, List.flatMap_cons, List.getElem?_cons_zero, List.getElem?_cons_succ,
      List.getElem?_eq_getElem hv0, Option.getD_some, List.nil_append, List.append_assoc]
  refine C45_few_names_ub readDec hbs hD.good.2.2.2 (hln := vname ++ [32, 32] ++ [d] ++ joinD [d] cols ++ [10]) (names := vname :: cols)
    ⟨by simp [Lines.Ok], by simp, vhead_isLine hD hn hc, by simp⟩ (ln := num v[0] ++ [d] ++ ([] ++ [d] ++ joinD [d] (r.map num)) ++ [10])
    ⟨by simp [Lines.Ok], by simp, hline, by simp⟩
    ((List.range M'.length).flatMap (fun j => num (v[j + 1]?.getD 0) ++ [d] ++ [d] ++ joinD [d] ((M'[j]?.getD []).map num) ++ [10])) _ (by rw [hsplit]) ?_ ?_ fuel hf
  · intro h
    rcases List.mem_append.1 h with h | h
    · have hp := head_item hD hn.vec.1 hn.vec.2
      have := no255_join hD ((vname ++ [32, 32]) :: cols) (by
        intro s hs; rcases List.mem_cons.1 hs with rfl | h; exacts [hp.1, (hn.cols s h).1.1])
      rw [joinD_cons [d] _ cols hc] at this
      rcases List.mem_append.1 h with h | h
      · exact this h
      · revert h; decide
    · exact h255 h
  · simp [hr, hl]

end

/-- Both happen: a vector `v` of 1 and a matrix with the column `m` of 2. -/
example : VSizes [1] 1 [[2]] ∧ VNames comma 9 (str "v") [str "m"] ∧ VNames comma 44 (str "v") [str "m"] ∧ WhiteD 9 ∧ ¬WhiteD 44 ∧
    printCore [9] false (some (vpage (some (str "v")) [str "m"] [1] 1 [[2]])) = .ok (str "v  \tm\n    1\t\t    2\n") ∧
    printCore [44] false (some (vpage (some (str "v")) [str "m"] [1] 1 [[2]])) = .ok (str "v  ,m\n    1,,    2\n") := by
  refine ⟨⟨by decide, by decide, by decide, ?_, ?_⟩, ⟨⟨⟨by unfold Plain; decide +kernel, by unfold Tight; decide +kernel, by unfold WhiteD; decide +kernel⟩, by decide +kernel⟩, ?_⟩,
    ⟨⟨⟨by unfold Plain; decide +kernel, by unfold Tight; decide +kernel, by unfold WhiteD; decide +kernel⟩, by decide +kernel⟩, ?_⟩, Or.inl rfl, by unfold WhiteD; decide, by decide +kernel, by decide +kernel⟩
  · intro x hx; simp only [List.mem_singleton] at hx; subst hx; unfold InRange; norm_num
  · intro r hr x hx; simp only [List.mem_singleton] at hr; subst hr; simp only [List.mem_singleton] at hx; subst hx; unfold InRange; norm_num
  · intro s hs; simp only [List.mem_singleton] at hs; subst hs
    exact ⟨⟨by unfold Plain; decide +kernel, by unfold Tight; decide +kernel, by unfold WhiteD; decide +kernel⟩, by decide +kernel⟩
  · intro s hs; simp only [List.mem_singleton] at hs; subst hs
    exact ⟨⟨by unfold Plain; decide +kernel, by unfold Tight; decide +kernel, by unfold WhiteD; decide +kernel⟩, by decide +kernel⟩

/-- **A page with a vector only prints like the matrix with that one column**, under the vector's name. -/
theorem C117_vector_only (d : CStr) (vname : CStr) (v : List Num) (rownames : List CStr) :
    printCore d false (some { vname := some vname, rownames := rownames, vec := some v }) =
      printCore d false (some { cols := [vname], rownames := rownames, mat := some ⟨1, v.map ([·])⟩ }) := by
  rw [printCore, printCore]
  have h1 : (PSet.rowend { vname := some vname, rownames := rownames, vec := some v }) = v.length := rfl
  have h2 : (PSet.rowend { cols := [vname], rownames := rownames, mat := some ⟨1, v.map ([·])⟩ }) = v.length := by simp [PSet.rowend]
  rw [h1, h2]
  have hh : cat (printHead d false { vname := some vname, rownames := rownames, vec := some v }) =
      cat (printHead d false { cols := [vname], rownames := rownames, mat := some ⟨1, v.map ([·])⟩ }) := by
    simp [printHead, printTitle, printCorner, printVname, printCols, printTexts, PSet.hasHead, sepBy, cat, Res.bind]
  have hr : (List.range v.length).flatMap (printRow d false { vname := some vname, rownames := rownames, vec := some v }) =
      (List.range v.length).flatMap (printRow d false { cols := [vname], rownames := rownames, mat := some ⟨1, v.map ([·])⟩ }) := by
    apply List.flatMap_congr
    intro j hj
    have hj := List.mem_range.1 hj
    simp [printRow, printRowname, printVec, printMat, printText, printWeight, sepBy, List.getElem?_eq_getElem hj]
  rw [cat_append, cat_append, hh, hr]

/-- **Elements of a vector that is longer than the matrix has rows are not printed**: the output is that of the vector cut off. -/
theorem C117_long_vector_cut (d : CStr) (v : List Num) (m : Grid Num) :
    printCore d false (some { vec := some v, mat := some m }) = printCore d false (some { vec := some (v.take m.rows.length), mat := some m }) := by
  rw [printCore, printCore]
  have h1 : (PSet.rowend { vec := some v, mat := some m }) = m.rows.length := rfl
  have h2 : (PSet.rowend { vec := some (v.take m.rows.length), mat := some m }) = m.rows.length := rfl
  rw [h1, h2]
  have hr : (List.range m.rows.length).flatMap (printRow d false { vec := some v, mat := some m }) =
      (List.range m.rows.length).flatMap (printRow d false { vec := some (v.take m.rows.length), mat := some m }) := by
    apply List.flatMap_congr
    intro j hj
    have hj := List.mem_range.1 hj
    have : (v.take m.rows.length)[j]? = v[j]? := by rw [List.getElem?_take, if_pos hj]
    simp [printRow, printRowname, printVec, printMat, printText, printWeight, this]
  rw [hr]
  rfl

/-- **A page with weights only prints nothing.** -/
theorem C117_weights_only_nothing (d : CStr) (w : List Num) : printCore d false (some { weights := some w }) = .ok [] := rfl

end Apop.Out
