import Verif.Out.Lines

/-! # A printed data set, read again (C115, C116)

`apop_data_print` to a file, then `apop_text_to_data` or `apop_text_to_db` on that file. -/

namespace Apop.Out

open Apop.Parse

/-- A page with a matrix of `w` columns and rows `M`, with names, `tw` columns of text with rows `T` (none if `tw` is 0), and perhaps weights. -/
def page (cols texts rownames : List CStr) (w : Nat) (M : List (List ℚ)) (tw : Nat := 0) (T : List (List CStr) := []) (W : Option (List ℚ) := none) : PSet where
  cols := cols
  texts := texts
  rownames := rownames
  mat := some ⟨w, M.map (·.map some)⟩
  text := if tw = 0 then none else some ⟨tw, T⟩
  weights := W.map (·.map some)

/-- The sizes agree: every row has `w` numbers, and there is at least one; text, weights and row names are absent or as many as there are rows. -/
structure Sizes (rownames : List CStr) (w : Nat) (M : List (List ℚ)) (tw : Nat) (T : List (List CStr)) (W : Option (List ℚ)) : Prop where
  w0 : w ≠ 0
  rows : ∀ r ∈ M, r.length = w
  names : rownames = [] ∨ rownames.length = M.length
  text : tw = 0 ∨ T.length = M.length
  trows : ∀ r ∈ T, r.length = tw
  wts : ∀ v, W = some v → v.length = M.length

/-- What `p_fn` writes. -/
def num (x : ℚ) : CStr := match pFn (some x) with | .ok s => s | .ub => []

theorem pFn_num {x : ℚ} (h : InRange x) : pFn (some x) = .ok (num x) := by
  obtain ⟨s, h1, _⟩ := pFn_read x h
  unfold num
  rw [h1]

theorem num_chars {x : ℚ} (h : InRange x) : (num x).all numChar = true ∧ strip (num x) ≠ [] := by
  obtain ⟨s, h1, h2, h3⟩ := pFn_chars x h
  unfold num
  rw [h1]
  exact ⟨h2, h3⟩

theorem num_read {x : ℚ} (h : InRange x) : readDec (strip (num x)) = some (readBack x) := by
  obtain ⟨s, h1, h2⟩ := pFn_read x h
  unfold num
  rw [h1]
  exact h2

/-- The items of row `j`, as printed. -/
def toks (rownames : List CStr) (M : List (List ℚ)) (tw : Nat) (T : List (List CStr)) (W : Option (List ℚ)) (j : Nat) : List CStr :=
  (rownames[j]?).toList.map (padLeft (maxLen rownames + 2)) ++ ((M[j]?.getD []).map num ++
    ((if tw = 0 then [] else T[j]?.getD []) ++ ((W.getD [])[j]?).toList.map num))

theorem joinD_pre (d : CStr) (a : Option CStr) (b : List CStr) (hb : b ≠ []) :
    joinD d (a.toList ++ b) = (match a with | none => [] | some x => x ++ d) ++ joinD d b := by
  cases a with
  | none => simp
  | some x => simp [joinD_cons d x b hb]

theorem joinD_suf (d : CStr) (b c : List CStr) (hb : b ≠ []) : joinD d (b ++ c) = joinD d b ++ (if c = [] then [] else d ++ joinD d c) := by
  cases c with
  | nil => simp
  | cons x c => rw [joinD_append d b (x :: c) hb (by simp)]; simp

theorem map_pFn {r : List ℚ} (h : ∀ x ∈ r, InRange x) : (r.map some).map pFn = (r.map num).map .ok := by
  rw [List.map_map, List.map_map]
  apply List.map_congr_left
  intro x hx
  exact pFn_num (h x hx)

/-- One line. -/
theorem row_print (d : CStr) {cols texts rownames : List CStr} {w : Nat} {M : List (List ℚ)} {tw : Nat} {T : List (List CStr)} {W : Option (List ℚ)}
    (hs : Sizes rownames w M tw T W) (hr : ∀ r ∈ M, ∀ x ∈ r, InRange x) (hrw : ∀ v, W = some v → ∀ x ∈ v, InRange x) (j : Nat) (hj : j < M.length) :
    cat (printRow d false (page cols texts rownames w M tw T W) j) = .ok (joinD d (toks rownames M tw T W j) ++ [10]) := by
  have hMj : M[j]? = some M[j] := List.getElem?_eq_getElem hj
  have hmem : M[j] ∈ M := List.getElem_mem hj
  have hne : (M[j]).map num ≠ [] := by
    intro h
    have h1 := hs.rows _ hmem
    simp only [List.map_eq_nil_iff] at h
    rw [h] at h1
    exact hs.w0 h1.symm
  have hmat : printMat d (page cols texts rownames w M tw T W) j = sepBy d (((M[j]).map num).map .ok) := by
    simp only [printMat, page, List.getElem?_map, hMj, Option.map_some]
    rw [map_pFn (hr _ hmem)]
  have htext : cat (printText d false (page cols texts rownames w M tw T W) j) =
      .ok (if (if tw = 0 then [] else T[j]?.getD []) = [] then [] else d ++ joinD d (if tw = 0 then [] else T[j]?.getD [])) := by
    by_cases htw : tw = 0
    · simp [printText, page, htw, cat]
    · have hT : T.length = M.length := hs.text.resolve_left htw
      have hj' : j < T.length := by omega
      have hTne : T[j] ≠ [] := by
        intro h
        have := hs.trows _ (List.getElem_mem hj')
        rw [h] at this
        exact htw this.symm
      simp only [printText, page, htw, if_false, List.getElem?_eq_getElem hj', Option.getD_some, hTne]
      simp only [Option.isSome_none, Option.isSome_some, Bool.false_eq_true, false_or, if_true, aPipe, if_false, List.cons_append, List.nil_append, cat, Res.bind, cat_sepBy]
  have hw : cat (printWeight d false (page cols texts rownames w M tw T W) j) =
      .ok (if ((W.getD [])[j]?).toList.map num = [] then [] else d ++ joinD d (((W.getD [])[j]?).toList.map num)) := by
    cases hW : W with
    | none => simp [printWeight, page, cat]
    | some v =>
      have hj' : j < v.length := by rw [hs.wts v hW]; exact hj
      have := hrw v hW _ (List.getElem_mem hj')
      simp only [printWeight, page, Option.map_some, List.getElem?_map, List.getElem?_eq_getElem hj', Option.getD_some, pFn_num this]
      simp [cat, Res.bind, aPipe, joinD]
  have hrn : printRowname d (page cols texts rownames w M tw T W) j = (match (rownames[j]?).map (padLeft (maxLen rownames + 2)) with | none => [] | some x => x ++ d) := by
    simp only [printRowname, page]
    cases rownames[j]? <;> rfl
  have hvec : printVec d false (page cols texts rownames w M tw T W) j = [] := rfl
  rw [printRow, hvec, hrn, hmat]
  simp only [List.cons_append, cat, cat_append, cat_sepBy, htext, hw, Res.bind, List.append_nil, List.nil_append]
  congr 1
  unfold toks
  rw [hMj, Option.getD_some]
  have hpre := joinD_pre d ((rownames[j]?).map (padLeft (maxLen rownames + 2)))
    ((M[j]).map num ++ ((if tw = 0 then [] else T[j]?.getD []) ++ ((W.getD [])[j]?).toList.map num)) (by simp [hne])
  have htl : ((rownames[j]?).map (padLeft (maxLen rownames + 2))).toList = (rownames[j]?).toList.map (padLeft (maxLen rownames + 2)) := by
    cases rownames[j]? <;> rfl
  rw [← htl, hpre, ← List.append_assoc ((M[j]).map num), joinD_suf d _ _ (by simp [hne]), joinD_suf d _ _ hne]
  simp only [List.append_assoc]

theorem cat_flatMap_ok {f : Nat → List (Res CStr)} {g : Nat → CStr} : ∀ (l : List Nat), (∀ j ∈ l, cat (f j) = .ok (g j)) → cat (l.flatMap f) = .ok (l.flatMap g)
  | [], _ => rfl
  | j :: l, h => by
    rw [List.flatMap_cons, cat_append, h j (by simp), cat_flatMap_ok l (fun i hi => h i (by simp [hi]))]
    rfl

/-- The corner of the header. -/
def corner (rownames : List CStr) : CStr := if rownames = [] then [] else List.replicate (maxLen rownames + 4) 32

/-- The items of the header, as printed. -/
def headToks (cols texts rownames : List CStr) : List CStr :=
  match cols ++ texts with
  | [] => []
  | c :: cs => (corner rownames ++ c) :: cs

theorem joinD_headToks (d : CStr) (cols texts rownames : List CStr) (h : cols ≠ []) : joinD d (headToks cols texts rownames) = corner rownames ++ joinD d (cols ++ texts) := by
  cases cols with
  | nil => exact absurd rfl h
  | cons c cs =>
    simp only [headToks, List.cons_append]
    generalize cs ++ texts = r
    cases r with
    | nil => simp [joinD]
    | cons y r => simp [joinD]

theorem pad_corner (n : Nat) : padLeft (n + 2) [32] ++ [32, 32] = List.replicate (n + 4) 32 := by
  unfold padLeft
  simp only [List.length_singleton]
  have h1 : ([32] : CStr) = List.replicate 1 32 := rfl
  have h2 : ([32, 32] : CStr) = List.replicate 2 32 := rfl
  rw [h2, h1, List.replicate_append_replicate, List.replicate_append_replicate]
  congr 1

/-- The names agree with the sizes: one for each column of the matrix and of the text, or none at all. -/
def Named (cols texts : List CStr) (w tw : Nat) : Prop := cols.length = w ∧ texts.length = tw

/-- The printed lines. -/
def lines (d : UInt8) (rownames : List CStr) (M : List (List ℚ)) (tw : Nat) (T : List (List CStr)) (W : Option (List ℚ)) : Lines :=
  (List.range M.length).map (fun j => (joinD [d] (toks rownames M tw T W j) ++ [10], (toks rownames M tw T W j).map strip))

theorem lines_bytes (d : UInt8) (rownames : List CStr) (M : List (List ℚ)) (tw : Nat) (T : List (List CStr)) (W : Option (List ℚ)) :
    (lines d rownames M tw T W).bytes = (List.range M.length).flatMap (fun j => joinD [d] (toks rownames M tw T W j) ++ [10]) := by
  unfold lines Lines.bytes
  rw [List.flatMap_map]

theorem head_named (d : CStr) {cols texts rownames : List CStr} {w : Nat} {M : List (List ℚ)} {tw : Nat} {T : List (List CStr)} {W : Option (List ℚ)}
    (hw : w ≠ 0) (hn : Named cols texts w tw) : cat (printHead d false (page cols texts rownames w M tw T W)) = .ok (joinD d (headToks cols texts rownames) ++ [10]) := by
  have hc : cols ≠ [] := by rintro rfl; exact hw hn.1.symm
  have hce : cols.isEmpty = false := by cases cols <;> simp_all
  rw [joinD_headToks d _ _ _ hc]
  have h1 : printCorner (page cols texts rownames w M tw T W) = corner rownames := by
    unfold printCorner corner PSet.hasHead page
    by_cases hr : rownames = []
    · simp [hr]
    · simp only [hr, ne_eq, not_false_eq_true, Option.isSome_none, Bool.false_or, hce, Bool.not_false, Bool.true_or, and_self, if_true, if_false]
      exact pad_corner _
  have h2 : printCols d false (page cols texts rownames w M tw T W) = sepBy d (cols.map .ok) := by
    unfold printCols page
    simp
  have h3 : cat (printTexts d false (page cols texts rownames w M tw T W)) = .ok (if texts = [] then [] else d ++ joinD d texts) := by
    by_cases ht : tw = 0
    · have : texts = [] := List.length_eq_zero_iff.1 (by rw [hn.2, ht])
      simp [printTexts, page, ht, this, cat]
    · have : texts ≠ [] := by rintro rfl; exact ht hn.2.symm
      simp only [printTexts, page, ht, if_false, ne_eq, not_false_eq_true, this, and_self, if_true, Option.isSome_none, Bool.false_eq_true, false_and, Option.isSome_some,
        hc, or_true, List.cons_append, List.nil_append, cat, cat_sepBy, aPipe, Res.bind]
  have h4 : (page cols texts rownames w M tw T W).hasHead = true := by simp [PSet.hasHead, page, hce]
  have h5 : printTitle (page cols texts rownames w M tw T W) = [] := rfl
  have h6 : printVname (page cols texts rownames w M tw T W) = [] := rfl
  rw [printHead, h1, h2, h4, h5, h6]
  simp only [List.cons_append, List.nil_append, if_true, cat, cat_append, cat_sepBy, h3, Res.bind, List.append_nil]
  rw [joinD_suf d cols texts hc]
  simp

theorem head_unnamed (d : CStr) {rownames : List CStr} {w : Nat} {M : List (List ℚ)} {tw : Nat} {T : List (List CStr)} {W : Option (List ℚ)} :
    cat (printHead d false (page [] [] rownames w M tw T W)) = .ok [] := by
  have h2 : printCols d false (page [] [] rownames w M tw T W) = [] := by simp [printCols, page, sepBy]
  have h3 : printTexts d false (page [] [] rownames w M tw T W) = [] := by
    unfold printTexts page
    split
    · rfl
    · simp
  have h1 : printCorner (page [] [] rownames w M tw T W) = [] := by simp [printCorner, PSet.hasHead, page]
  have h4 : (page [] [] rownames w M tw T W).hasHead = false := rfl
  have h5 : printTitle (page [] [] rownames w M tw T W) = [] := rfl
  have h6 : printVname (page [] [] rownames w M tw T W) = [] := rfl
  rw [printHead, h1, h2, h3, h4, h5, h6]
  rfl

/-- The whole file, with a header. -/
theorem file_named (d : UInt8) {cols texts rownames : List CStr} {w : Nat} {M : List (List ℚ)} {tw : Nat} {T : List (List CStr)} {W : Option (List ℚ)}
    (hs : Sizes rownames w M tw T W) (hn : Named cols texts w tw) (hr : ∀ r ∈ M, ∀ x ∈ r, InRange x) (hrw : ∀ v, W = some v → ∀ x ∈ v, InRange x) :
    printCore [d] false (some (page cols texts rownames w M tw T W)) =
      .ok (joinD [d] (headToks cols texts rownames) ++ [10] ++ (lines d rownames M tw T W).bytes) := by
  have hend : (page cols texts rownames w M tw T W).rowend = M.length := by simp [PSet.rowend, page]
  rw [printCore, cat_append, head_named [d] hs.w0 hn, hend, cat_flatMap_ok _ (fun j hj => row_print [d] hs hr hrw j (List.mem_range.1 hj)), ← lines_bytes]
  rfl

/-- The whole file, without. -/
theorem file_unnamed (d : UInt8) {rownames : List CStr} {w : Nat} {M : List (List ℚ)} {tw : Nat} {T : List (List CStr)} {W : Option (List ℚ)}
    (hs : Sizes rownames w M tw T W) (hr : ∀ r ∈ M, ∀ x ∈ r, InRange x) (hrw : ∀ v, W = some v → ∀ x ∈ v, InRange x) :
    printCore [d] false (some (page [] [] rownames w M tw T W)) = .ok (lines d rownames M tw T W).bytes := by
  have hend : (page [] [] rownames w M tw T W).rowend = M.length := by simp [PSet.rowend, page]
  rw [printCore, cat_append, head_unnamed [d], hend, cat_flatMap_ok _ (fun j hj => row_print [d] hs hr hrw j (List.mem_range.1 hj)), ← lines_bytes]
  rfl

/-! ## The lines as the parser sees them -/

/-- Strings that can be printed between these delimiters and come back the same: plain, without blanks at the ends; and, where the delimiter is white space
(runs of which count as one), not empty. -/
def Name (delims : CStr) (d : UInt8) (s : CStr) : Prop := Plain delims s ∧ Tight s ∧ (WhiteD d → s ≠ [])

section
variable {delims : CStr} {d : UInt8} (hD : Delims delims d)
include hD

theorem toks_plain {rownames : List CStr} {M : List (List ℚ)} {tw : Nat} {T : List (List CStr)} {W : Option (List ℚ)}
    (hrn : ∀ s ∈ rownames, Plain delims s) (hr : ∀ r ∈ M, ∀ x ∈ r, InRange x) (hT : ∀ r ∈ T, ∀ s ∈ r, Plain delims s)
    (hrw : ∀ v, W = some v → ∀ x ∈ v, InRange x) (j : Nat) : ∀ s ∈ toks rownames M tw T W j, Plain delims s := by
  intro s hs
  simp only [toks, List.mem_append, List.mem_map] at hs
  rcases hs with ⟨x, hx, rfl⟩ | ⟨x, hx, rfl⟩ | hx | ⟨x, hx, rfl⟩
  · exact plain_pad hD _ (hrn x (List.mem_of_getElem? (Option.mem_toList.1 hx)))
  · cases hM : M[j]? with
    | none => rw [hM] at hx; simp at hx
    | some r => rw [hM] at hx; exact plain_num hD (num_chars (hr r (List.mem_of_getElem? hM) x hx)).1
  · split at hx
    · simp at hx
    · cases hTj : T[j]? with
      | none => rw [hTj] at hx; simp at hx
      | some r => rw [hTj] at hx; exact hT r (List.mem_of_getElem? hTj) s hx
  · cases hW : W with
    | none => rw [hW] at hx; simp at hx
    | some v =>
      rw [hW] at hx
      exact plain_num hD (num_chars (hrw v hW x (List.mem_of_getElem? (Option.mem_toList.1 hx)))).1

omit hD in
/-- What the items stand for. -/
theorem toks_strip {rownames : List CStr} {M : List (List ℚ)} {tw : Nat} {T : List (List CStr)} {W : Option (List ℚ)}
    (hrn : ∀ s ∈ rownames, Name delims d s) (hT : ∀ r ∈ T, ∀ s ∈ r, Name delims d s) (j : Nat) :
    (toks rownames M tw T W j).map strip =
      (rownames[j]?).toList ++ ((M[j]?.getD []).map (fun x => strip (num x)) ++ ((if tw = 0 then [] else T[j]?.getD []) ++ ((W.getD [])[j]?).toList.map (fun x => strip (num x)))) := by
  simp only [toks, List.map_append, List.map_map]
  congr 1
  · cases hn : rownames[j]? with
    | none => rfl
    | some s =>
      have := (hrn s (List.mem_of_getElem? hn)).2.1
      simp only [Option.toList_some, List.map_cons, List.map_nil, Function.comp_apply, strip_pad]
      rw [this]
  · congr 1
    congr 1
    split
    · rfl
    · cases hTj : T[j]? with
      | none => rfl
      | some r =>
        simp only [Option.getD_some]
        conv_rhs => rw [← List.map_id r]
        apply List.map_congr_left
        intro s hs
        exact (hT r (List.mem_of_getElem? hTj) s hs).2.1

/-- The strings of a data set are such as come back. -/
structure Strings (delims : CStr) (d : UInt8) (cols texts rownames : List CStr) (T : List (List CStr)) : Prop where
  cols : ∀ s ∈ cols, Name delims d s ∧ s ≠ []
  texts : ∀ s ∈ texts, Name delims d s ∧ s ≠ []
  rownames : ∀ s ∈ rownames, Name delims d s
  text : ∀ r ∈ T, ∀ s ∈ r, Name delims d s

/-- The numbers can be printed. -/
structure Numbers (M : List (List ℚ)) (W : Option (List ℚ)) : Prop where
  mat : ∀ r ∈ M, ∀ x ∈ r, InRange x
  wts : ∀ v, W = some v → ∀ x ∈ v, InRange x

variable {cols texts rownames : List CStr} {w : Nat} {M : List (List ℚ)} {tw : Nat} {T : List (List CStr)} {W : Option (List ℚ)}

/-- The record a row stands for: its name, its numbers as decimals, its text, its weight. -/
def record (rownames : List CStr) (M : List (List ℚ)) (tw : Nat) (T : List (List CStr)) (W : Option (List ℚ)) (j : Nat) : List CStr :=
  (rownames[j]?).toList ++ ((M[j]?.getD []).map (fun x => strip (num x)) ++ ((if tw = 0 then [] else T[j]?.getD []) ++ ((W.getD [])[j]?).toList.map (fun x => strip (num x))))

theorem lines_ok (hs : Sizes rownames w M tw T W) (hst : Strings delims d cols texts rownames T) (hnum : Numbers M W) :
    (lines d rownames M tw T W).Ok delims := by
  intro x hx
  obtain ⟨j, hj, rfl⟩ := List.mem_map.1 hx
  have hj := List.mem_range.1 hj
  have hMj : M[j]? = some M[j] := List.getElem?_eq_getElem hj
  have hlen : (M[j]).length = w := hs.rows _ (List.getElem_mem hj)
  refine ⟨by simp, ?_⟩
  have hpl := toks_plain hD (tw := tw) (W := W) (fun s h => (hst.rownames s h).1) hnum.mat (fun r h s h2 => (hst.text r h s h2).1) hnum.wts j
  have hne : toks rownames M tw T W j ≠ [] := by
    intro h
    have h0 : M[j].map num = [] := by
      unfold toks at h
      rw [hMj] at h
      simp only [Option.getD_some, List.append_eq_nil_iff] at h
      exact h.2.1
    rw [List.map_eq_nil_iff] at h0
    rw [h0] at hlen
    exact hs.w0 hlen.symm
  apply line_isLine hD _ hpl hne
  by_cases hsp : ∀ s ∈ toks rownames M tw T W j, strip s ≠ []
  · exact Or.inl hsp
  · right
    -- some item is blank: a name or a text, so that there are two
    have hstrip := toks_strip (delims := delims) (d := d) (M := M) (tw := tw) (W := W) hst.rownames hst.text j
    have hex : ∃ s ∈ (toks rownames M tw T W j).map strip, s = [] := by
      by_contra hcon
      apply hsp
      intro s hs1 h0
      exact hcon ⟨strip s, List.mem_map_of_mem hs1, h0⟩
    obtain ⟨s, hs1, rfl⟩ := hex
    have hlen2 : (toks rownames M tw T W j).length = ((rownames[j]?).toList ++ ((M[j]?.getD []).map (fun x => strip (num x)) ++
        ((if tw = 0 then [] else T[j]?.getD []) ++ ((W.getD [])[j]?).toList.map (fun x => strip (num x))))).length := by
      rw [← hstrip, List.length_map]
    rw [hstrip] at hs1
    simp only [List.mem_append, List.mem_map] at hs1
    simp only [List.length_append, List.length_map, hMj, Option.getD_some, hlen] at hlen2
    have hwpos := Nat.pos_of_ne_zero hs.w0
    rcases hs1 with h | ⟨x, hx, h⟩ | h | ⟨x, hx, h⟩
    · have hmem := Option.mem_toList.1 h
      have hN := hst.rownames _ (List.mem_of_getElem? hmem)
      refine ⟨fun hw => hN.2.2 hw rfl, ?_⟩
      rw [hlen2, hmem]
      simp only [Option.toList_some, List.length_singleton]
      omega
    · rw [hMj] at hx
      exact absurd h (num_chars (hnum.mat _ (List.getElem_mem hj) x hx)).2
    · split at h
      · simp at h
      · rename_i htw
        cases hTj : T[j]? with
        | none => rw [hTj] at h; simp at h
        | some r =>
          rw [hTj] at h
          have hmemT := List.mem_of_getElem? hTj
          refine ⟨fun hw => (hst.text r hmemT _ h).2.2 hw rfl, ?_⟩
          have hrl := hs.trows r hmemT
          rw [hlen2, hTj]
          simp only [htw, if_false, Option.getD_some, hrl]
          omega
    · cases hW : W with
      | none => rw [hW] at hx; simp at hx
      | some v =>
        rw [hW] at hx
        exact absurd h (num_chars (hnum.wts v hW x (List.mem_of_getElem? (Option.mem_toList.1 hx)))).2

omit hD in
theorem strsOf_strip {l : List CStr} (h : ∀ s ∈ l, Plain delims s) : strsOf (l.map strip) = l.map strip := by
  unfold strsOf
  rw [List.map_map]
  apply List.map_congr_left
  intro s hs
  exact no_nul (h s hs)

omit hD in
theorem record_ne (hs : Sizes rownames w M tw T W) {j : Nat} (hj : j < M.length) : record rownames M tw T W j ≠ [] := by
  intro h
  have hMj : M[j]? = some M[j] := List.getElem?_eq_getElem hj
  have hlen : (M[j]).length = w := hs.rows _ (List.getElem_mem hj)
  unfold record at h
  rw [hMj] at h
  simp only [Option.getD_some, List.append_eq_nil_iff, List.map_eq_nil_iff] at h
  rw [h.2.1] at hlen
  exact hs.w0 hlen.symm

theorem lines_records (hs : Sizes rownames w M tw T W) (hst : Strings delims d cols texts rownames T) (hnum : Numbers M W) :
    (lines d rownames M tw T W).records = (List.range M.length).map (record rownames M tw T W) := by
  unfold Lines.records lines
  have hf : ((List.range M.length).map (fun j => (joinD [d] (toks rownames M tw T W j) ++ [10], (toks rownames M tw T W j).map strip))).filter (fun x => !x.2.isEmpty) =
      (List.range M.length).map (fun j => (joinD [d] (toks rownames M tw T W j) ++ [10], (toks rownames M tw T W j).map strip)) := by
    rw [List.filter_eq_self]
    intro x hx
    obtain ⟨j, hj, rfl⟩ := List.mem_map.1 hx
    have := record_ne hs (List.mem_range.1 hj)
    rw [toks_strip (delims := delims) (d := d) hst.rownames hst.text]
    simpa [record] using this
  rw [hf, List.map_map]
  apply List.map_congr_left
  intro j _
  simp only [Function.comp_apply]
  rw [strsOf_strip (toks_plain hD (fun s h => (hst.rownames s h).1) hnum.mat (fun r h s h2 => (hst.text r h s h2).1) hnum.wts j),
    toks_strip (delims := delims) (d := d) hst.rownames hst.text]
  rfl

theorem lines_no255 (hst : Strings delims d cols texts rownames T) (hnum : Numbers M W) : (255 : UInt8) ∉ (lines d rownames M tw T W).bytes := by
  rw [lines_bytes]
  simp only [List.mem_flatMap, not_exists, not_and]
  intro j _ h
  rcases List.mem_append.1 h with h | h
  · exact no255_join hD _ (toks_plain hD (fun s h => (hst.rownames s h).1) hnum.mat (fun r h s h2 => (hst.text r h s h2).1) hnum.wts j) h
  · simp at h

end

end Apop.Out
