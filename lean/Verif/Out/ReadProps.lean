import Verif.Out.Read

/-! # What is printed can be read again (C115, C116) -/

namespace Apop.Out

open Apop.Parse

variable {delims : CStr} {d : UInt8} {cols texts rownames : List CStr} {w : Nat} {M : List (List ℚ)} {tw : Nat} {T : List (List CStr)} {W : Option (List ℚ)}

theorem headToks_strip (hst : Strings delims d cols texts rownames T) : (headToks cols texts rownames).map strip = cols ++ texts := by
  have hall : ∀ s ∈ cols ++ texts, strip s = s := by
    intro s hs
    rcases List.mem_append.1 hs with h | h
    · exact (hst.cols s h).1.2.1
    · exact (hst.texts s h).1.2.1
  unfold headToks
  cases h : cols ++ texts with
  | nil => rfl
  | cons c cs =>
    rw [h] at hall
    have hc : strip (corner rownames ++ c) = c := by
      unfold corner
      split
      · exact hall c (by simp)
      · rw [strip_blanks]; exact hall c (by simp)
    simp only [List.map_cons, hc]
    congr 1
    conv_rhs => rw [← List.map_id cs]
    apply List.map_congr_left
    intro s hs
    exact hall s (by simp [hs])

theorem headToks_plain (hD : Delims delims d) (hst : Strings delims d cols texts rownames T) : ∀ s ∈ headToks cols texts rownames, Plain delims s := by
  have hall : ∀ s ∈ cols ++ texts, Plain delims s := by
    intro s hs
    rcases List.mem_append.1 hs with h | h
    · exact (hst.cols s h).1.1
    · exact (hst.texts s h).1.1
  unfold headToks
  cases h : cols ++ texts with
  | nil => simp
  | cons c cs =>
    rw [h] at hall
    intro s hs
    simp only [List.mem_cons] at hs
    rcases hs with rfl | hs
    · apply plain_append _ (hall c (by simp))
      unfold corner
      split
      · intro c hc; simp at hc
      · exact plain_blanks hD _
    · exact hall s (by simp [hs])

theorem headToks_isLine (hD : Delims delims d) (hst : Strings delims d cols texts rownames T) (hc : cols ≠ []) :
    IsLine delims (joinD [d] (headToks cols texts rownames) ++ [10]) (cols ++ texts) := by
  have := line_isLine hD (headToks cols texts rownames) (headToks_plain hD hst)
    (by intro h; have := congrArg (List.map strip) h; rw [headToks_strip hst] at this; simp [hc] at this)
    (Or.inl (by
      intro s hs h0
      have : strip s ∈ (headToks cols texts rownames).map strip := List.mem_map_of_mem hs
      rw [headToks_strip hst] at this
      rcases List.mem_append.1 this with h | h
      · exact (hst.cols _ h).2 h0
      · exact (hst.texts _ h).2 h0))
  rw [headToks_strip hst] at this
  exact this

theorem strsOf_names (hst : Strings delims d cols texts rownames T) : strsOf (cols ++ texts) = cols ++ texts := by
  unfold strsOf
  conv_rhs => rw [← List.map_id (cols ++ texts)]
  apply List.map_congr_left
  intro s hs
  have hN : Plain delims s ∧ Tight s := by
    rcases List.mem_append.1 hs with h | h
    · exact ⟨(hst.cols s h).1.1, (hst.cols s h).1.2.1⟩
    · exact ⟨(hst.texts s h).1.1, (hst.texts s h).1.2.1⟩
  have := no_nul hN.1
  rw [hN.2] at this
  exact this

/-- The lines are the first one and the others. -/
theorem lines_cons (r : List ℚ) (M : List (List ℚ)) (tw : Nat) (T : List (List CStr)) (W : Option (List ℚ)) : ∃ ls : Lines,
    lines d rownames (r :: M) tw T W =
      (joinD [d] (toks rownames (r :: M) tw T W 0) ++ [10], (toks rownames (r :: M) tw T W 0).map strip) :: ls := by
  unfold lines
  rw [List.length_cons, List.range_succ_eq_map]
  exact ⟨_, rfl⟩

/-- What is read of a row: the record without the name. -/
theorem record_read (hn : rownames = [] ∨ rownames.length = M.length) (hnum : Numbers M W) (j : Nat) (hj : j < M.length) :
    ((record rownames M 0 T none j).drop (if rownames = [] then 0 else 1)).map (fun x => some (readDec x)) = (M[j]).map (fun x => some (some (readBack x))) := by
  have hMj : M[j]? = some M[j] := List.getElem?_eq_getElem hj
  have hrec : (record rownames M 0 T none j).drop (if rownames = [] then 0 else 1) = (M[j]).map (fun x => strip (num x)) := by
    unfold record
    rw [hMj]
    split
    · rename_i h; subst h; simp
    · rename_i h
      have hl := hn.resolve_left h
      rw [List.getElem?_eq_getElem (by omega : j < rownames.length)]
      simp
  rw [hrec, List.map_map]
  apply List.map_congr_left
  intro x hx
  simp only [Function.comp_apply]
  rw [num_read (hnum.mat _ (List.getElem_mem hj) x hx)]

theorem record_name (hn : rownames = [] ∨ rownames.length = M.length) :
    ((List.range M.length).map (record rownames M 0 T none)).flatMap (·.take (if rownames = [] then 0 else 1)) = rownames := by
  by_cases h : rownames = []
  · simp [h]
  · have hl := hn.resolve_left h
    simp only [h, if_false]
    rw [List.flatMap_map, ← hl]
    have : ∀ j ∈ List.range rownames.length, (record rownames M 0 T none j).take 1 = (rownames[j]?).toList := by
      intro j hj
      have hj := List.mem_range.1 hj
      unfold record
      rw [List.getElem?_eq_getElem hj]
      simp
    rw [List.flatMap_congr this]
    clear this hn hl h
    induction rownames with
    | nil => rfl
    | cons x l ih =>
      rw [List.length_cons, List.range_succ_eq_map, List.flatMap_cons, List.flatMap_map]
      simpa using ih

theorem rows_read (hn : rownames = [] ∨ rownames.length = M.length) (hnum : Numbers M W) :
    ((List.range M.length).map (record rownames M 0 T none)).map (fun s => (s.drop (if rownames = [] then 0 else 1)).map (fun x => some (readDec x))) =
      M.map (·.map (fun x => some (some (readBack x)))) := by
  rw [List.map_map]
  apply List.ext_getElem
  · simp
  · intro j h1 h2
    simp only [List.length_map, List.length_range] at h1
    simp only [List.getElem_map, List.getElem_range, Function.comp_apply]
    exact record_read hn hnum j h1

/-- **C115: print, then `apop_text_to_data`.** A page that is a matrix with at least one row and column, with a name for every column, with a name for every row or none,
printed to a file and read with column names (and row names if there are any), gives the same names and the same shape, every cell written, and in
each cell the number rounded to six digits after the point (`readBack`); there is no error. The delimiter is any single character that the reader takes for one, and that is
not in a printed number: a comma, a semicolon, a tab. -/
theorem C115_print_read {bs : Nat} (hbs : 0 < bs) (hD : Delims delims d) (hs : Sizes rownames w M 0 T none) (hn : cols.length = w)
    (hst : Strings delims d cols [] rownames T) (hnum : Numbers M none) (hM : M ≠ []) :
    ∃ file, printCore [d] false (some (page cols [] rownames w M)) = .ok file ∧ ∀ (fuel : Nat), file.length + M.length + 2 < fuel →
      textToData readDec (fileSeq bs file) delims fuel (if rownames = [] then 0 else 1) true =
        .done { colnames := cols, rownames := rownames, rows := M.map (·.map (fun x => some (some (readBack x)))) } := by
  have hc : cols ≠ [] := by rintro rfl; exact hs.w0 hn.symm
  have hN : Named cols [] w 0 := ⟨hn, rfl⟩
  have hs' : Sizes rownames w M 0 [] none := ⟨hs.w0, hs.rows, hs.names, Or.inl rfl, by simp, by simp⟩
  have hst' : Strings delims d cols [] rownames [] := ⟨hst.cols, hst.texts, hst.rownames, by simp⟩
  refine ⟨_, file_named d hs' hN hnum.mat hnum.wts, ?_⟩
  intro fuel hf
  obtain ⟨r, M', rfl⟩ := List.exists_cons_of_ne_nil hM
  obtain ⟨ls, hls⟩ := lines_cons (d := d) (rownames := rownames) r M' 0 [] none
  have hok := lines_ok hD hs' hst' hnum
  have hrec := lines_records hD hs' hst' hnum
  have h255 := lines_no255 (tw := 0) hD hst' hnum
  have hlen : ls.length = M'.length := by
    have := congrArg List.length hls
    simp [lines] at this
    omega
  have hhead := headToks_isLine hD hst' hc
  have hall : strsOf (cols ++ []) = cols ++ [] := strsOf_names hst'
  rw [List.append_nil] at hhead hall
  have hlenrec : ∀ s ∈ (List.range (r :: M').length).map (record rownames (r :: M') 0 [] none), s.length = cols.length + (if rownames = [] then 0 else 1) := by
    intro s hs1
    obtain ⟨j, hj, rfl⟩ := List.mem_map.1 hs1
    have hj := List.mem_range.1 hj
    unfold record
    rw [List.getElem?_eq_getElem hj]
    have := hs.rows _ (List.getElem_mem hj)
    simp only [Option.getD_some, if_true, List.nil_append, Option.getD_none, List.length_append, List.length_map, this]
    split
    · rename_i h; subst h; simp [hn]
    · rename_i h
      have hl := hs.names.resolve_left h
      rw [List.getElem?_eq_getElem (by omega : j < rownames.length)]
      simp [hn]
      omega
  rw [hls] at hok hrec h255 hf ⊢
  have hrec0 : Lines.records ((joinD [d] (toks rownames (r :: M') 0 [] none 0) ++ [10], (toks rownames (r :: M') 0 [] none 0).map strip) :: ls) =
      strsOf ((toks rownames (r :: M') 0 [] none 0).map strip) :: ls.records := by
    apply records_cons
    intro h
    simp only at h
    have := toks_strip (delims := delims) (d := d) (M := r :: M') (tw := 0) (W := none) hst'.rownames hst'.text 0
    rw [h] at this
    exact record_ne hs' (j := 0) (by simp) this.symm
  rw [hrec0] at hrec
  have hf0 : (strsOf ((toks rownames (r :: M') 0 [] none 0).map strip)).length = cols.length + (if rownames = [] then 0 else 1) :=
    hlenrec _ (by rw [← hrec]; simp)
  rw [strsOf_length] at hf0
  have := C45_matrix readDec hbs hD.good.2.2.2 (if rownames = [] then 0 else 1) (hbl := []) (hln := joinD [d] (headToks cols [] rownames) ++ [10]) (names := cols)
    ⟨by simp [Lines.Ok], by simp, hhead, hc⟩ (bl := [])
    (ln := joinD [d] (toks rownames (r :: M') 0 [] none 0) ++ [10]) (fields := (toks rownames (r :: M') 0 [] none 0).map strip)
    ⟨by simp [Lines.Ok], by simp, (hok _ List.mem_cons_self).2, by
      intro h
      have := toks_strip (delims := delims) (d := d) (M := r :: M') (tw := 0) (W := none) hst'.rownames hst'.text 0
      rw [h] at this
      exact record_ne hs' (j := 0) (by simp) this.symm⟩
    ls (fun x hx => hok x (by simp [hx])) [] [] (nil_isTail _)
    (joinD [d] (headToks cols [] rownames) ++ [10] ++
      Lines.bytes ((joinD [d] (toks rownames (r :: M') 0 [] none 0) ++ [10], (toks rownames (r :: M') 0 [] none 0).map strip) :: ls))
    (by simp [Lines.bytes])
    (by
      intro h
      simp only [List.mem_append] at h
      rcases h with (h | h) | h
      · exact no255_join hD _ (headToks_plain hD hst') h
      · simp at h
      · exact h255 h)
    (by rw [hf0]) hc
    (by
      intro s hs1
      simp only [tailRec, if_true, List.append_nil] at hs1
      rw [hf0]
      apply hlenrec
      rw [← hrec]
      simp [hs1])
    fuel (by
      rw [List.length_cons] at hf
      simp only [List.length_nil, Nat.add_zero]
      omega)
  rw [this]
  simp only [tailRec, if_true, List.append_nil, hrec, hall]
  rw [record_name hs'.names, rows_read hs'.names hnum]

/-- **C115 without column names.** -/
theorem C115_print_read_nohead {bs : Nat} (hbs : 0 < bs) (hD : Delims delims d) (hs : Sizes rownames w M 0 T none)
    (hst : Strings delims d [] [] rownames T) (hnum : Numbers M none) (hM : M ≠ []) :
    ∃ file, printCore [d] false (some (page [] [] rownames w M)) = .ok file ∧ ∀ (fuel : Nat), file.length + M.length + 2 < fuel →
      textToData readDec (fileSeq bs file) delims fuel (if rownames = [] then 0 else 1) false =
        .done { rownames := rownames, rows := M.map (·.map (fun x => some (some (readBack x)))) } := by
  have hs' : Sizes rownames w M 0 [] none := ⟨hs.w0, hs.rows, hs.names, Or.inl rfl, by simp, by simp⟩
  have hst' : Strings delims d [] [] rownames [] := ⟨hst.cols, hst.texts, hst.rownames, by simp⟩
  refine ⟨_, file_unnamed d hs' hnum.mat hnum.wts, ?_⟩
  intro fuel hf
  have hrec := lines_records hD hs' hst' hnum
  have hlenrec : ∀ s ∈ (List.range M.length).map (record rownames M 0 [] none), s.length = w + (if rownames = [] then 0 else 1) := by
    intro s hs1
    obtain ⟨j, hj, rfl⟩ := List.mem_map.1 hs1
    have hj := List.mem_range.1 hj
    unfold record
    rw [List.getElem?_eq_getElem hj]
    have := hs.rows _ (List.getElem_mem hj)
    simp only [Option.getD_some, if_true, List.nil_append, Option.getD_none, List.length_append, List.length_map, this]
    split
    · rename_i h; subst h; simp
    · rename_i h
      have hl := hs.names.resolve_left h
      rw [List.getElem?_eq_getElem (by omega : j < rownames.length)]
      simp
      omega
  have hne : (List.range M.length).map (record rownames M 0 [] none) ≠ [] := by
    simp only [ne_eq, List.map_eq_nil_iff, List.range_eq_nil]
    intro h; exact hM (List.length_eq_zero_iff.1 h)
  have hcols : colsOf (if rownames = [] then 0 else 1) none ((List.range M.length).map (record rownames M 0 [] none)) = w := by
    generalize (List.range M.length).map (record rownames M 0 [] none) = recs at *
    cases recs with
    | nil => exact absurd rfl hne
    | cons s r => simp [colsOf, hlenrec s (by simp)]
  have := textToData_nohead readDec hbs hD.good.2.2.2 (if rownames = [] then 0 else 1) (lines d rownames M 0 [] none) (lines_ok hD hs' hst' hnum) [] []
    (nil_isTail _) (by rw [List.append_nil]; exact lines_no255 (tw := 0) hD hst' hnum)
    (by simp only [tailRec, if_true, List.append_nil, hrec]; exact hne)
    (by simp only [tailRec, if_true, List.append_nil, hrec]; rw [hcols]; exact hs.w0)
    fuel (by rw [List.append_nil]; simp only [lines, List.length_map, List.length_range] at hf ⊢; exact hf)
  simp only [tailRec, if_true, List.append_nil, hrec, hcols] at this
  rw [this, expect_even readDec _ w _ hlenrec, record_name hs'.names, rows_read hs'.names hnum]

/-- **What is read is within half of the last digit of what was printed**, and the same if six digits after the point are enough. -/
theorem C115_rounding (x : ℚ) : |readBack x - x| ≤ 1 / 2000000 ∧ ((∃ n : Int, x * 1000000 = n) → readBack x = x) := ⟨readBack_close x, readBack_exact x⟩

/-- **C115: numbers with at most six digits after the point come back as they are.** -/
theorem C115_print_read_exact {bs : Nat} (hbs : 0 < bs) (hD : Delims delims d) (hs : Sizes rownames w M 0 T none) (hn : cols.length = w)
    (hst : Strings delims d cols [] rownames T) (hnum : Numbers M none) (hM : M ≠ []) (hex : ∀ r ∈ M, ∀ x ∈ r, ∃ n : Int, x * 1000000 = n) :
    ∃ file, printCore [d] false (some (page cols [] rownames w M)) = .ok file ∧ ∀ (fuel : Nat), file.length + M.length + 2 < fuel →
      textToData readDec (fileSeq bs file) delims fuel (if rownames = [] then 0 else 1) true =
        .done { colnames := cols, rownames := rownames, rows := M.map (·.map (fun x => some (some x))) } := by
  obtain ⟨file, h1, h2⟩ := C115_print_read hbs hD hs hn hst hnum hM
  refine ⟨file, h1, fun fuel hf => ?_⟩
  rw [h2 fuel hf]
  congr 2
  apply List.map_congr_left
  intro r hr
  apply List.map_congr_left
  intro x hx
  rw [readBack_exact x (hex r hr x hx)]

/-- The hypotheses can be met: columns `a` and `b b`, rows `x` and `y` of 1, -3 and 1/2, 7, with a comma; and the file is as it should be. -/
example : Delims comma 44 ∧ Sizes [str "x", str "y"] 2 [[1, -3], [1 / 2, 7]] 0 [] none ∧ Strings comma 44 [str "a", str "b b"] [] [str "x", str "y"] [] ∧
    Numbers [[1, -3], [1 / 2, 7]] none ∧ printCore [44] false (some (page [str "a", str "b b"] [] [str "x", str "y"] 2 [[1, -3], [1 / 2, 7]])) =
      .ok (str "     a,b b\n  x,    1,   -3\n  y, 0.500000,    7\n") := by
  refine ⟨⟨by unfold GoodDelims; decide, by decide, by decide, by decide, by decide⟩, ⟨by decide, by decide, by decide, by decide, by decide, by simp⟩, ?_, ?_, by decide +kernel⟩
  · constructor
    · intro s hs
      simp only [List.mem_cons, List.not_mem_nil, or_false] at hs
      rcases hs with rfl | rfl
      · exact ⟨⟨by unfold Plain; decide +kernel, by unfold Tight; decide +kernel, by unfold WhiteD; decide +kernel⟩, by decide +kernel⟩
      · exact ⟨⟨by unfold Plain; decide +kernel, by unfold Tight; decide +kernel, by unfold WhiteD; decide +kernel⟩, by decide +kernel⟩
    · simp
    · intro s hs
      simp only [List.mem_cons, List.not_mem_nil, or_false] at hs
      rcases hs with rfl | rfl
      · exact ⟨by unfold Plain; decide +kernel, by unfold Tight; decide +kernel, by unfold WhiteD; decide +kernel⟩
      · exact ⟨by unfold Plain; decide +kernel, by unfold Tight; decide +kernel, by unfold WhiteD; decide +kernel⟩
    · simp
  · constructor
    · intro r hr x hx
      simp only [List.mem_cons, List.not_mem_nil, or_false] at hr
      rcases hr with rfl | rfl <;> simp only [List.mem_cons, List.not_mem_nil, or_false] at hx <;> rcases hx with rfl | rfl <;> unfold InRange <;> norm_num
    · simp

/-- **Small numbers are lost**: one ten-millionth is printed as zero. -/
theorem C115_small_lost : pFn (some (1 / 10000000)) = .ok (str " 0.000000") ∧ readDec (strip (str " 0.000000")) = some 0 := by decide +kernel

/-- **NaN, infinities and numbers beyond the range of int cannot be printed**: the conversion to int that every element goes through has no defined result. -/
theorem C115_out_of_range_ub (x : Num) (h : ∀ y, x = some y → ¬InRange y) : pFn x = .ub := by
  cases x with
  | none => rfl
  | some y =>
    have hy := h y rfl
    have : toInt (some y) = .ub := if_neg hy
    unfold pFn
    rw [this]

/-- **C115 refuted for pages with weights: the file cannot be read with its names.** The weights are printed as one more item of each line but have no name in the header, so that
`apop_text_to_data` reads names past the end of the list. -/
theorem C115_weights_refuted {bs : Nat} (hbs : 0 < bs) {u : List ℚ} (hD : Delims delims d) (hs : Sizes [] w M 0 [] (some u)) (hn : cols.length = w)
    (hst : Strings delims d cols [] [] []) (hnum : Numbers M (some u)) (hM : M ≠ []) :
    ∃ file, printCore [d] false (some (page cols [] [] w M 0 [] (some u))) = .ok file ∧ ∀ (fuel : Nat), file.length + 2 < fuel →
      textToData readDec (fileSeq bs file) delims fuel 0 true = .ub := by
  have hc : cols ≠ [] := by rintro rfl; exact hs.w0 hn.symm
  refine ⟨_, file_named d hs ⟨hn, rfl⟩ hnum.mat hnum.wts, ?_⟩
  intro fuel hf
  obtain ⟨r, M', rfl⟩ := List.exists_cons_of_ne_nil hM
  obtain ⟨ls, hls⟩ := lines_cons (d := d) (rownames := []) r M' 0 [] (some u)
  have hok := lines_ok hD hs hst hnum
  have h255 := lines_no255 (tw := 0) hD hst hnum
  have hstrip := toks_strip (delims := delims) (d := d) (M := r :: M') (tw := 0) (W := some u) hst.rownames hst.text 0
  have hlen : ((toks [] (r :: M') 0 [] (some u) 0).map strip).length = w + 1 := by
    have hu := hs.wts u rfl
    rw [hstrip]
    have hu0 : 0 < u.length := by rw [hu]; simp
    simp [hs.rows r (by simp), List.getElem?_eq_getElem hu0]
  have hhead := headToks_isLine hD hst hc
  rw [List.append_nil] at hhead
  rw [hls] at hok h255 hf ⊢
  refine C45_few_names_ub readDec hbs hD.good.2.2.2 (hln := joinD [d] (headToks cols [] []) ++ [10]) (names := cols) ⟨by simp [Lines.Ok], by simp, hhead, hc⟩
    (ln := joinD [d] (toks [] (r :: M') 0 [] (some u) 0) ++ [10]) (fields := (toks [] (r :: M') 0 [] (some u) 0).map strip)
    ⟨by simp [Lines.Ok], by simp, (hok _ List.mem_cons_self).2, by intro h; rw [h] at hlen; simp at hlen⟩ (Lines.bytes ls) _ (by simp [Lines.bytes]) ?_ (by rw [hlen, hn]; omega) fuel hf
  intro h
  simp only [List.mem_append] at h
  rcases h with (h | h) | h
  · exact no255_join hD _ (headToks_plain hD hst) h
  · simp at h
  · exact h255 h

/-- **C116: print, then `apop_text_to_db`.** A matrix with names for all columns, with or without text (its columns named too) and row names: the table gets the names of the
columns, matrix first, and for every row, in order, one record: the row's name, the numbers as decimals, the text. (With row names there is one more field in the records than names.) -/
theorem C116_print_db {bs : Nat} (hbs : 0 < bs) (hD : Delims delims d) (hs : Sizes rownames w M tw T W) (hn : Named cols texts w tw)
    (hst : Strings delims d cols texts rownames T) (hnum : Numbers M W) (hM : M ≠ []) :
    ∃ file, printCore [d] false (some (page cols texts rownames w M tw T W)) = .ok file ∧ ∀ (fuel : Nat), file.length + M.length + 2 < fuel →
      ∃ ret, textToDb (fileSeq bs file) delims fuel true = .done (cols ++ texts, (List.range M.length).map (record rownames M tw T W), ret) := by
  have hc : cols ≠ [] := by rintro rfl; exact hs.w0 hn.1.symm
  refine ⟨_, file_named d hs hn hnum.mat hnum.wts, ?_⟩
  intro fuel hf
  obtain ⟨r, M', rfl⟩ := List.exists_cons_of_ne_nil hM
  obtain ⟨ls, hls⟩ := lines_cons (d := d) (rownames := rownames) r M' tw T W
  have hok := lines_ok hD hs hst hnum
  have hrec := lines_records hD hs hst hnum
  have h255 := lines_no255 (tw := tw) hD hst hnum
  have hlen : ls.length = M'.length := by
    have := congrArg List.length hls
    simp [lines] at this
    omega
  have hne0 : (toks rownames (r :: M') tw T W 0).map strip ≠ [] := by
    intro h
    have := toks_strip (delims := delims) (d := d) (M := r :: M') (tw := tw) (W := W) hst.rownames hst.text 0
    rw [h] at this
    exact record_ne hs (j := 0) (by simp) this.symm
  rw [hls] at hok hrec h255 hf ⊢
  have hrec0 : Lines.records ((joinD [d] (toks rownames (r :: M') tw T W 0) ++ [10], (toks rownames (r :: M') tw T W 0).map strip) :: ls) =
      strsOf ((toks rownames (r :: M') tw T W 0).map strip) :: ls.records := records_cons ls hne0
  rw [hrec0] at hrec
  obtain ⟨ret, this⟩ := C33_records bs hbs delims hD.good.2.2.2 (hbl := []) (hln := joinD [d] (headToks cols texts rownames) ++ [10]) (names := cols ++ texts)
    ⟨by simp [Lines.Ok], by simp, headToks_isLine hD hst hc, by simp [hc]⟩ (bl := [])
    (ln := joinD [d] (toks rownames (r :: M') tw T W 0) ++ [10]) (fields := (toks rownames (r :: M') tw T W 0).map strip)
    ⟨by simp [Lines.Ok], by simp, (hok _ List.mem_cons_self).2, hne0⟩ ls (fun x hx => hok x (by simp [hx]))
    (joinD [d] (headToks cols texts rownames) ++ [10] ++
      Lines.bytes ((joinD [d] (toks rownames (r :: M') tw T W 0) ++ [10], (toks rownames (r :: M') tw T W 0).map strip) :: ls))
    (by simp [Lines.bytes])
    (by
      intro h
      simp only [List.mem_append] at h
      rcases h with (h | h) | h
      · exact no255_join hD _ (headToks_plain hD hst) h
      · simp at h
      · exact h255 h)
    fuel (by
      rw [List.length_cons] at hf
      simp only [List.length_nil, Nat.add_zero]
      omega)
  exact ⟨ret, by rw [this, hrec, strsOf_names hst]⟩

/-- The hypotheses can be met: one column `a` of numbers, one `t` of text. -/
example : Sizes [] 1 [[1], [2]] 1 [[str "p"], [str "q r"]] none ∧ Named [str "a"] [str "t"] 1 1 ∧
    printCore [9] false (some (page [str "a"] [str "t"] [] 1 [[1], [2]] 1 [[str "p"], [str "q r"]])) = .ok (str "a\tt\n    1\tp\n    2\tq r\n") := by
  refine ⟨⟨by decide, by decide, by decide, by decide, by decide +kernel, by simp⟩, ⟨rfl, rfl⟩, by decide +kernel⟩

end Apop.Out
