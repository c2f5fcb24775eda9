import Verif.Pack.Model

/-! # C21: pack and unpack are inverse -/

namespace Apop.Pack
variable {α : Type}

/-! ## Specification -/

/-- The elements of a page in the documented order: vector, matrix row by row, weights. -/
def flat (p : Page α) : List α :=
  p.vector.getD [] ++ ((p.matrix.map (·.rows)).getD []).flatten ++ p.weights.getD []

/-- An info page: its title is in angle brackets. -/
def Info (p : Page α) : Prop := ∃ n t, p.names = some n ∧ n.title = some (60 :: (t ++ [62]))

/-- The parts that are there have elements (as `apop_data_alloc` makes them), and the matrix is rectangular. -/
structure Solid (p : Page α) : Prop where
  vec : ∀ v, p.vector = some v → v ≠ []
  mat : ∀ m, p.matrix = some m → m.WF ∧ m.cols ≠ 0
  wts : ∀ w, p.weights = some w → w ≠ []

/-- The sizes of the parts a page has: vector, columns and rows of the matrix, weights. -/
def shape (p : Page α) : Option Nat × Option (Nat × List Nat) × Option Nat :=
  (p.vector.map List.length, p.matrix.map (fun m => (m.cols, m.rows.map List.length)), p.weights.map List.length)

/-- Page `p` with the numbers of `d`; names, text and error flag stay. -/
def nums (p d : Page α) : Page α := { p with vector := d.vector, matrix := d.matrix, weights := d.weights }

/-- A page with its title in brackets, decidably. -/
def isInfo (p : Page α) : Bool := (p.names.map (fun n => infoTitle n.title)).getD false

theorem infoTitle_iff (t : Option CStr) : infoTitle t = true ↔ ∃ u, t = some (60 :: (u ++ [62])) := by
  cases t with
  | none => simp [infoTitle]
  | some t =>
    constructor
    · intro h
      simp only [infoTitle, Bool.and_eq_true, decide_eq_true_eq, beq_iff_eq] at h
      obtain ⟨⟨h1, h2⟩, h3⟩ := h
      cases t with
      | nil => simp at h1
      | cons a t =>
        simp only [List.head?_cons, Option.some.injEq] at h2
        subst h2
        have ht : t ≠ [] := by rintro rfl; simp at h1
        rw [List.getLast?_cons_of_ne_nil ht] at h3
        obtain ⟨u, rfl⟩ := List.getLast?_eq_some_iff.1 h3
        exact ⟨u, rfl⟩
    · rintro ⟨u, hu⟩
      rw [Option.some.injEq] at hu
      subst hu
      simp only [infoTitle, Bool.and_eq_true, decide_eq_true_eq, beq_iff_eq]
      refine ⟨⟨by simp, rfl⟩, ?_⟩
      exact List.getLast?_concat (l := 60 :: u)

theorem isInfo_iff (p : Page α) : isInfo p = true ↔ Info p := by
  unfold isInfo Info
  cases hn : p.names with
  | none => simp
  | some n =>
    simp only [Option.map_some, Option.getD_some, infoTitle_iff, Option.some.injEq]
    constructor
    · rintro ⟨u, hu⟩; exact ⟨n, u, rfl, hu⟩
    · rintro ⟨n', u, rfl, hu⟩; exact ⟨u, hu⟩

/-- Fill the pages of a chain that are not info pages with the numbers of the listed pages, in order. -/
def fill : List (Page α) → List (Page α) → List (Page α)
  | [], _ => []
  | p :: ps, ds =>
    if isInfo p then p :: fill ps ds
    else match ds with
      | [] => p :: ps
      | d :: ds => nums p d :: fill ps ds

/-! ## Lemmas -/

theorem put_exact {A B C x : List α} (hx : x.length = B.length) (hB : B ≠ []) : put (A ++ B ++ C) A.length x = .ok (A ++ x ++ C) := by
  have hBl := List.length_pos_iff.2 hB
  unfold put viewOk
  rw [if_pos (by simp; omega)]
  congr 1
  rw [List.append_assoc A B C, List.take_left' rfl, hx, ← List.drop_drop, List.drop_left' rfl, List.drop_left' rfl]

theorem sub_exact {A B C : List α} (hB : B ≠ []) : sub (A ++ B ++ C) A.length B.length = .ok B := by
  have hBl := List.length_pos_iff.2 hB
  unfold sub viewOk
  rw [if_pos (by simp; omega), List.append_assoc, List.drop_left' rfl, List.take_left' rfl]

theorem split_out {out : List α} {n : Nat} (h : n ≤ out.length) : ∃ B C, out = B ++ C ∧ B.length = n :=
  ⟨out.take n, out.drop n, (List.take_append_drop n out).symm, by rw [List.length_take]; omega⟩

theorem putRows_eq (c : Nat) (hc : c ≠ 0) : ∀ (rs : List (List α)) (A out : List α), (∀ r ∈ rs, r.length = c) → rs.flatten.length ≤ out.length →
    putRows rs A.length (A ++ out) = .ok (A ++ rs.flatten ++ out.drop rs.flatten.length, A.length + rs.flatten.length)
  | [], A, out, _, _ => by simp [putRows]
  | r :: rs, A, out, hr, hl => by
    have h0 := hr r (by simp)
    simp only [List.flatten_cons, List.length_append] at hl
    obtain ⟨B, C, rfl, hB⟩ := split_out (out := out) (n := r.length) (by omega)
    have hBn : B ≠ [] := by rw [← List.length_pos_iff]; omega
    have hput : put (A ++ (B ++ C)) A.length r = .ok (A ++ r ++ C) := by
      rw [← List.append_assoc]; exact put_exact hB.symm hBn
    have ih := putRows_eq c hc rs (A ++ r) C (fun r h => hr r (by simp [h])) (by rw [List.length_append] at hl; omega)
    rw [List.length_append] at ih
    rw [putRows, hput]
    simp only [Res.bind_ok]
    rw [ih]
    simp only [List.flatten_cons, List.length_append, List.append_assoc, Nat.add_assoc]
    rw [← List.drop_drop, List.drop_left' hB]

theorem flat_length {p : Page α} (hp : Solid p) : (flat p).length = pageSize p := by
  unfold flat pageSize
  have hm : (((p.matrix.map (·.rows)).getD []).flatten).length = (p.matrix.map (fun m => m.size1 * m.cols)).getD 0 := by
    cases h : p.matrix with
    | none => simp
    | some m =>
      have := (hp.mat m h).1
      simp only [Option.map_some, Option.getD_some, Mat.size1]
      unfold Mat.WF at this
      generalize m.rows = rs at *
      induction rs with
      | nil => simp
      | cons r rs ih =>
        simp only [List.flatten_cons, List.length_append, List.length_cons]
        rw [ih (fun r h => this r (by simp [h])), this r (by simp), Nat.succ_mul]; omega
  simp only [List.length_append, hm]
  cases p.vector <;> cases p.weights <;> simp

theorem put_prefix {A x out : List α} (hx : x ≠ []) (hl : x.length ≤ out.length) :
    put (A ++ out) A.length x = .ok (A ++ x ++ out.drop x.length) := by
  obtain ⟨B, C, rfl, hB⟩ := split_out hl
  rw [List.drop_left' hB, ← List.append_assoc]
  refine put_exact hB.symm ?_
  have := List.length_pos_iff.2 hx
  rw [← List.length_pos_iff]; omega

theorem putPage_eq {p : Page α} (hp : Solid p) {out : List α} (hl : pageSize p ≤ out.length) :
    putPage p out = .ok (flat p ++ out.drop (pageSize p), pageSize p) := by
  rw [← flat_length hp] at hl ⊢
  unfold flat at hl ⊢
  simp only [List.length_append] at hl ⊢
  have h1 : putVec p.vector out = .ok (p.vector.getD [] ++ out.drop (p.vector.getD []).length, (p.vector.getD []).length) := by
    cases h : p.vector with
    | none => simp [putVec]
    | some v =>
      rw [h] at hl
      simp only [Option.getD_some] at hl ⊢
      have := put_prefix (A := []) (hp.vec v h) (out := out) (by omega)
      simp only [List.nil_append, List.length_nil] at this
      rw [putVec, this]; rfl
  have h2 : ∀ (A out : List α), ((p.matrix.map (·.rows)).getD []).flatten.length ≤ out.length →
      putMat p.matrix A.length (A ++ out) =
      .ok (A ++ ((p.matrix.map (·.rows)).getD []).flatten ++ out.drop ((p.matrix.map (·.rows)).getD []).flatten.length,
        (A ++ ((p.matrix.map (·.rows)).getD []).flatten).length) := by
    intro A out ho
    cases h : p.matrix with
    | none => simp [putMat]
    | some m =>
      simp only [h, Option.map_some, Option.getD_some] at ho ⊢
      obtain ⟨w1, w2⟩ := hp.mat m h
      rw [putMat, putRows_eq m.cols w2 m.rows A out w1 ho, List.length_append]
  have h3 : ∀ (A out : List α), (p.weights.getD []).length ≤ out.length →
      putWts p.weights A.length (A ++ out) =
      .ok (A ++ p.weights.getD [] ++ out.drop (p.weights.getD []).length, A.length + (p.weights.getD []).length) := by
    intro A out ho
    cases h : p.weights with
    | none => simp [putWts]
    | some w =>
      simp only [h, Option.getD_some] at ho ⊢
      rw [putWts, put_prefix (hp.wts w h) ho]; rfl
  unfold putPage
  rw [h1]
  simp only [Res.bind_ok]
  rw [h2 _ _ (by simp only [List.length_drop]; omega)]
  simp only [Res.bind_ok]
  rw [h3 _ _ (by simp only [List.length_drop]; omega)]
  simp only [List.drop_drop, List.length_append]

/-- Pages whose numbers are packed: all of them if info pages are asked for, else those that are not info pages. -/
def kept (u : Char) (p : Page α) : Bool := yes u || !isInfo p

/-- The character is one of the two documented choices (or 'Y'). -/
def UseOk (u : Char) : Prop := u = 'n' ∨ yes u = true

theorem sizecount_eq {u : Char} : ∀ (ps : List (Page α)), sizecount true (yes u) ps = ((ps.filter (kept u)).map pageSize).sum
  | [] => rfl
  | p :: ps => by
    simp only [sizecount]
    have : (p.names.map (fun n => infoTitle n.title)).getD false = isInfo p := rfl
    rw [this, sizecount_eq ps]
    cases hu : yes u <;> cases hi : isInfo p <;> simp [kept, hu, hi]

/-- The skipping loop ends at the first kept page. -/
theorem skipInfo_eq {u : Char} (hu : UseOk u) : ∀ (ps : List (Page α)), (u = 'n' → ∀ p ∈ ps, p.names ≠ none) →
    ∃ qs, skipInfo u ps = .ok qs ∧ qs <:+ ps ∧ qs.filter (kept u) = ps.filter (kept u) ∧ (∀ q, qs.head? = some q → kept u q = true)
      ∧ (∀ x ∈ ps.take (ps.length - qs.length), kept u x = false)
  | [], _ => ⟨[], rfl, List.suffix_refl _, rfl, by simp, by simp⟩
  | p :: ps, hn => by
    by_cases h : u = 'n'
    · have hnp : ∃ n, p.names = some n := Option.ne_none_iff_exists'.1 (hn h p (by simp))
      obtain ⟨n, hnn⟩ := hnp
      by_cases hi : infoTitle n.title = true
      · obtain ⟨qs, a, b, c, d, e⟩ := skipInfo_eq hu ps (fun h q hq => hn h q (by simp [hq]))
        have hk : kept u p = false := by subst h; simp [kept, yes, isInfo, hnn, hi]
        refine ⟨qs, by rw [skipInfo, if_pos h, titleOf, hnn]; simp only [Res.bind_ok]; rw [if_pos hi]; exact a,
          b.trans (List.suffix_cons _ _), ?_, d, ?_⟩
        · rw [c, List.filter_cons_of_neg (by simp [hk])]
        · intro x hx
          have hle := b.length_le
          rw [List.length_cons, show ps.length + 1 - qs.length = (ps.length - qs.length) + 1 by omega, List.take_succ_cons] at hx
          rcases List.mem_cons.1 hx with rfl | hx
          · exact hk
          · exact e x hx
      · refine ⟨p :: ps, by rw [skipInfo, if_pos h, titleOf, hnn]; simp only [Res.bind_ok]; rw [if_neg hi], List.suffix_refl _, rfl, ?_, by simp⟩
        intro q hq
        simp only [List.head?_cons, Option.some.injEq] at hq
        subst hq
        simp [kept, isInfo, hnn, hi]
    · have hy : yes u = true := hu.resolve_left h
      exact ⟨p :: ps, by rw [skipInfo, if_neg h], List.suffix_refl _, rfl, by simp [kept, hy], by simp⟩

/-- In every tail of the list of pages that is not empty there is an element. -/
def TailsFull : List (Page α) → Prop
  | [] => True
  | [p] => 0 < pageSize p
  | _ :: q :: ps => TailsFull (q :: ps)

theorem tailsFull_pos : ∀ {ps : List (Page α)}, TailsFull ps → ps ≠ [] → 0 < (ps.map pageSize).sum
  | [p], h, _ => by simpa [TailsFull] using h
  | p :: q :: ps, h, _ => by
    have := tailsFull_pos (ps := q :: ps) h (by simp)
    simp only [List.map_cons, List.sum_cons] at this ⊢; omega

theorem tailsFull_tail {p : Page α} {ps : List (Page α)} (h : TailsFull (p :: ps)) : TailsFull ps := by
  cases ps with
  | nil => trivial
  | cons q ps => exact h

theorem filter_head {u : Char} {q : Page α} {qs : List (Page α)} (h : kept u q = true) :
    (q :: qs).filter (kept u) = q :: qs.filter (kept u) := List.filter_cons_of_pos h

theorem packInto_eq {u m : Char} (hu : UseOk u) (hm : yes m = true) : ∀ (n : Nat) (p : Page α) (ps : List (Page α)) (out : List α), ps.length ≤ n →
    kept u p = true → (u = 'n' → ∀ q ∈ ps, q.names ≠ none) → (∀ q ∈ (p :: ps).filter (kept u), Solid q) →
    TailsFull (ps.filter (kept u)) → 0 < out.length →
    out.length = (((p :: ps).filter (kept u)).map pageSize).sum →
    packInto m u (p :: ps) out = .ok (((p :: ps).filter (kept u)).flatMap flat, true)
  | n, p, ps, out, hle, hk, hn, hs, ht, hpos, hlen => by
    rw [filter_head hk] at hs hlen ⊢
    simp only [List.map_cons, List.sum_cons] at hlen
    have hsz : sizecount (yes m) (yes u) (p :: ps) = out.length := by
      rw [hm, sizecount_eq, filter_head hk, hlen]; simp
    have hput := putPage_eq (hs p (by simp)) (out := out) (by omega)
    have hfl := flat_length (hs p (by simp))
    obtain ⟨qs, a, b, c, d, -⟩ := skipInfo_eq hu ps hn
    rw [packInto, if_neg (by rw [hsz]; simp), if_neg (by rw [hsz]; omega), hput]
    simp only [Res.bind_ok, hm, if_true]
    split
    · rename_i h; rw [a] at h; cases h
    · rename_i h
      rw [a, Res.ok.injEq] at h
      subst h
      simp only [List.filter_nil] at c
      rw [← c] at hlen ⊢
      simp only [List.map_nil, List.sum_nil, Nat.add_zero] at hlen
      simp [← hlen]
    · rename_i q qs' h
      rw [a, Res.ok.injEq] at h
      subst h
      have hkq := d q rfl
      rw [filter_head hkq] at c
      have hb := b.length_le
      simp only [List.length_cons] at hb
      have htot := tailsFull_pos ht (by rw [← c]; simp)
      have hdl : (out.drop (pageSize p)).length = ((ps.filter (kept u)).map pageSize).sum := by rw [List.length_drop]; omega
      have hol : (flat p ++ out.drop (pageSize p)).length = out.length := by rw [List.length_append, hfl, List.length_drop]; omega
      rw [if_pos (by rw [hol]; simp [viewOk]; omega), List.drop_left' hfl, List.take_left' hfl]
      have ih := packInto_eq hu hm (n - 1) q qs' (out.drop (pageSize p)) (by omega) hkq
        (fun h x hx => hn h x (b.mem (by simp [hx])))
        (by rw [filter_head hkq, c]; intro x hx; exact hs x (by simp at hx ⊢; exact Or.inr hx))
        (by rw [← c] at ht; exact tailsFull_tail ht)
        (by rw [hdl]; exact htot) (by rw [filter_head hkq, c, hdl])
      rw [ih]
      simp only [Res.bind_ok, filter_head hkq, c, List.flatMap_cons]
  termination_by n _ ps => ps.length

/-- **C21, packing.** All pages (or those that are not info pages) are packed in order, each as vector, matrix row by
row, weights, when the first page is one that is packed, pages have name structures, and the last page packed (if it
is not the first) has elements. -/
theorem C21_pack {u m : Char} (hu : UseOk u) (hm : yes m = true) (junk : α) (p : Page α) (ps : List (Page α))
    (hfirst : kept u p = true) (hnames : u = 'n' → ∀ q ∈ ps, q.names ≠ none)
    (hsolid : ∀ q ∈ (p :: ps).filter (kept u), Solid q) (hlast : TailsFull (ps.filter (kept u)))
    (hpos : ((p :: ps).filter (kept u)).flatMap flat ≠ []) :
    pack junk m u (p :: ps) = .ok (some (((p :: ps).filter (kept u)).flatMap flat)) ∧
      (((p :: ps).filter (kept u)).flatMap flat).length = (((p :: ps).filter (kept u)).map pageSize).sum := by
  have hlen : (((p :: ps).filter (kept u)).flatMap flat).length = (((p :: ps).filter (kept u)).map pageSize).sum := by
    rw [List.length_flatMap]
    congr 1
    apply List.map_congr_left
    intro q hq
    exact flat_length (hsolid q hq)
  refine ⟨?_, hlen⟩
  have hp : 0 < (((p :: ps).filter (kept u)).map pageSize).sum := by rw [← hlen]; exact List.length_pos_iff.2 hpos
  have hsz : sizecount (yes m) (yes u) (p :: ps) = (((p :: ps).filter (kept u)).map pageSize).sum := by rw [hm, sizecount_eq]
  rw [pack, if_neg (by rw [hsz]; omega),
    packInto_eq hu hm ps.length p ps _ (Nat.le_refl _) hfirst hnames hsolid hlast (by rw [List.length_replicate, hsz]; exact hp)
      (by rw [List.length_replicate, hsz])]
  rfl

/-! ### Unpacking -/

theorem takeRows_eq (c : Nat) (hc : c ≠ 0) : ∀ (rs ds : List (List α)) (A C : List α), rs.map List.length = ds.map List.length → (∀ d ∈ ds, d.length = c) →
    takeRows (A ++ ds.flatten ++ C) rs A.length = .ok (ds, A.length + ds.flatten.length)
  | [], ds, A, C, h, _ => by
    have : ds = [] := by simpa using h.symm
    subst this; simp [takeRows]
  | r :: rs, [], A, C, h, _ => by simp at h
  | r :: rs, d :: ds, A, C, h, hd => by
    simp only [List.map_cons, List.cons.injEq] at h
    have hdn : d ≠ [] := by rw [← List.length_pos_iff, hd d (by simp)]; omega
    have h1 := sub_exact (A := A) (B := d) (C := ds.flatten ++ C) hdn
    have ih := takeRows_eq c hc rs ds (A ++ d) C h.2 (fun x hx => hd x (by simp [hx]))
    rw [List.length_append] at ih
    rw [takeRows, h.1, show A ++ (d :: ds).flatten ++ C = A ++ d ++ (ds.flatten ++ C) by simp, h1]
    simp only [Res.bind_ok]
    rw [← List.append_assoc, ih]
    simp [Nat.add_assoc]

theorem takePage_eq {p d : Page α} (hd : Solid d) (hs : shape p = shape d) (C : List α) :
    takePage (flat d ++ C) p = .ok (nums p d, (flat d).length) := by
  simp only [shape, Prod.mk.injEq] at hs
  obtain ⟨hv, hm, hw⟩ := hs
  obtain ⟨dv, dm, dw⟩ := hd
  have h1 : ∀ V, takeVec (d.vector.getD [] ++ V) p.vector = .ok (d.vector, (d.vector.getD []).length) := by
    intro V
    cases hp : p.vector with
    | none => cases hq : d.vector with
      | none => rfl
      | some _ => simp [hp, hq] at hv
    | some x => cases hq : d.vector with
      | none => simp [hp, hq] at hv
      | some y =>
        simp only [hp, hq, Option.map_some, Option.some.injEq] at hv
        have := sub_exact (A := []) (B := y) (C := V) (dv y hq)
        simp only [List.nil_append, List.length_nil] at this
        simp only [takeVec, Option.getD_some, hv, this, Res.bind_ok]
  have h2 : ∀ (A V : List α), takeMat (A ++ ((d.matrix.map (·.rows)).getD []).flatten ++ V) p.matrix A.length =
      .ok (d.matrix, (A ++ ((d.matrix.map (·.rows)).getD []).flatten).length) := by
    intro A V
    cases hp : p.matrix with
    | none => cases hq : d.matrix with
      | none => simp [takeMat]
      | some _ => simp [hp, hq] at hm
    | some x => cases hq : d.matrix with
      | none => simp [hp, hq] at hm
      | some y =>
        simp only [hp, hq, Option.map_some, Option.some.injEq, Prod.mk.injEq] at hm
        obtain ⟨w1, w2⟩ := dm y hq
        simp only [Option.map_some, Option.getD_some]
        rw [takeMat, takeRows_eq y.cols w2 x.rows y.rows A V hm.2 w1]
        simp [hm.1]
  have h3 : ∀ (A : List α), takeWts (A ++ d.weights.getD [] ++ C) p.weights A.length =
      .ok (d.weights, A.length + (d.weights.getD []).length) := by
    intro A
    cases hp : p.weights with
    | none => cases hq : d.weights with
      | none => rfl
      | some _ => simp [hp, hq] at hw
    | some x => cases hq : d.weights with
      | none => simp [hp, hq] at hw
      | some y =>
        simp only [hp, hq, Option.map_some, Option.some.injEq] at hw
        simp only [Option.getD_some]
        rw [takeWts, hw, sub_exact (dw y hq)]
        rfl
  unfold flat nums takePage
  have e1 := h1 (((d.matrix.map (·.rows)).getD []).flatten ++ (d.weights.getD [] ++ C))
  have e2 := h2 (d.vector.getD []) (d.weights.getD [] ++ C)
  have e3 := h3 (d.vector.getD [] ++ ((d.matrix.map (·.rows)).getD []).flatten)
  simp only [List.append_assoc] at e1 e2 e3 ⊢
  rw [e1]
  simp only [Res.bind_ok]
  rw [e2]
  simp only [Res.bind_ok]
  rw [e3]
  simp only [Res.bind_ok, List.length_append, Nat.add_assoc]

theorem fill_skip : ∀ {A B ds : List (Page α)}, (∀ x ∈ A, isInfo x = true) → fill (A ++ B) ds = A ++ fill B ds
  | [], B, ds, _ => rfl
  | a :: A, B, ds, h => by
    have e : fill (a :: (A ++ B)) ds = a :: fill (A ++ B) ds := by
      conv => lhs; unfold fill
      rw [if_pos (h a (by simp))]
    rw [List.cons_append, e, fill_skip (fun x hx => h x (by simp [hx]))]; rfl

theorem fill_nil : ∀ (ps : List (Page α)), fill ps [] = ps
  | [] => rfl
  | p :: ps => by
    rw [fill]
    split
    · rw [fill_nil ps]
    · rfl

theorem suffix_take {qs ps : List (Page α)} (h : qs <:+ ps) : ps = ps.take (ps.length - qs.length) ++ qs := by
  obtain ⟨A, rfl⟩ := h
  simp

theorem unpack_eq : ∀ (n : Nat) (p d : Page α) (ps ds : List (Page α)), ps.length ≤ n →
    shape p = shape d → (ps.filter (fun q => !isInfo q)).map shape = ds.map shape → (∀ q ∈ d :: ds, Solid q) → TailsFull ds →
    (∀ q ∈ ps, q.names ≠ none) →
    unpack 'n' ((d :: ds).flatMap flat) (p :: ps) = .ok (nums p d :: fill ps ds)
  | n, p, d, ps, ds, hle, hsh, hall, hsolid, htails, hnames => by
    have hu : UseOk 'n' := Or.inl rfl
    have hk : ∀ x : Page α, kept 'n' x = !isInfo x := by intro x; simp [kept, yes]
    have hk' : (kept 'n' : Page α → Bool) = fun q => !isInfo q := by funext x; exact hk x
    obtain ⟨qs, a, b, c, d1, e⟩ := skipInfo_eq hu ps (fun _ => hnames)
    rw [hk'] at c
    rw [unpack, List.flatMap_cons, takePage_eq (hsolid d (by simp)) hsh]
    simp only [Res.bind_ok]
    by_cases hds : ds = []
    · subst hds
      rw [if_neg (by simp), fill_nil]
    · have hpos : 0 < (ds.flatMap flat).length := by
        have := tailsFull_pos htails hds
        rw [List.length_flatMap]
        have h2 : ds.map (fun x => (flat x).length) = ds.map pageSize := List.map_congr_left (fun q hq => flat_length (hsolid q (by simp [hq])))
        rw [h2]; exact this
      have hps : ps ≠ [] := by
        rintro rfl
        simp only [List.filter_nil, List.map_nil] at hall
        exact hds (List.map_eq_nil_iff.1 hall.symm)
      rw [if_pos ⟨by simp only [List.length_append]; omega, hps⟩,
        if_pos (by simp only [viewOk, List.length_append, decide_eq_true_eq]; omega)]
      split
      · rename_i h; rw [a] at h; cases h
      · rename_i h
        rw [a, Res.ok.injEq] at h
        subst h
        simp only [List.filter_nil] at c
        rw [← c] at hall
        exact absurd (List.map_eq_nil_iff.1 hall.symm) hds
      · rename_i q qs' h
        rw [a, Res.ok.injEq] at h
        subst h
        have hq : isInfo q = false := by have := d1 q rfl; rw [hk] at this; simpa using this
        rw [List.filter_cons_of_pos (by simp [hq])] at c
        rw [← c] at hall
        cases ds with
        | nil => exact absurd rfl hds
        | cons d' ds' =>
          simp only [List.map_cons, List.cons.injEq] at hall
          obtain ⟨h1, h2⟩ := hall
          have hb := b.length_le
          simp only [List.length_cons] at hb
          have ih := unpack_eq (n - 1) q d' qs' ds' (by omega) h1 h2 (fun x hx => hsolid x (by simp at hx ⊢; exact Or.inr hx))
            (tailsFull_tail htails) (fun x hx => hnames x (b.mem (by simp [hx])))
          rw [List.drop_left' rfl, ih]
          simp only [Res.bind_ok]
          congr 1
          have hsplit := suffix_take b
          have hinf : ∀ x ∈ ps.take (ps.length - (q :: qs').length), isInfo x = true := by
            intro x hx; have := e x hx; rw [hk] at this; simpa using this
          conv => rhs; rw [hsplit, fill_skip hinf, fill, if_neg (by simp [hq])]
          simp
  termination_by n _ _ ps _ => ps.length

/-- **C21, the round trip without info pages**: unpacking what was packed from `d` into a data set `e` whose pages that
are not info pages have `d`'s shapes copies all numbers and changes nothing else. -/
theorem C21_roundtrip {m : Char} (hm : yes m = true) (junk : α) (p : Page α) (ps : List (Page α)) (e : Page α) (es : List (Page α))
    (hfirst : ¬ Info p) (hnames : ∀ q ∈ ps, q.names ≠ none) (henames : ∀ q ∈ es, q.names ≠ none)
    (hsolid : ∀ q ∈ p :: ps, Solid q) (hlast : TailsFull (ps.filter (fun q => !isInfo q)))
    (hpos : flat p ≠ [] ∨ (ps.filter (fun q => !isInfo q)) ≠ [])
    (hsh : shape e = shape p) (hshs : (es.filter (fun q => !isInfo q)).map shape = (ps.filter (fun q => !isInfo q)).map shape) :
    ∃ v, pack junk m 'n' (p :: ps) = .ok (some v) ∧
      unpack 'n' v (e :: es) = .ok (nums e p :: fill es (ps.filter (fun q => !isInfo q))) := by
  have hk' : (kept 'n' : Page α → Bool) = fun q => !isInfo q := by funext x; simp [kept, yes]
  have hkp : isInfo p = false := by
    rw [← isInfo_iff] at hfirst; simpa using hfirst
  have hf : (p :: ps).filter (fun q => !isInfo q) = p :: ps.filter (fun q => !isInfo q) := List.filter_cons_of_pos (by simp [hkp])
  have hsol : ∀ q ∈ p :: ps.filter (fun q => !isInfo q), Solid q := by
    intro q hq
    rcases List.mem_cons.1 hq with rfl | h
    · exact hsolid q (by simp)
    · exact hsolid q (by simp [(List.mem_filter.1 h).1])
  have hne : ((p :: ps).filter (kept 'n')).flatMap flat ≠ [] := by
    rw [hk', hf, List.flatMap_cons]
    rcases hpos with h | h
    · simp [h]
    · intro h0
      have h1 := tailsFull_pos hlast h
      have h2 : ((ps.filter (fun q => !isInfo q)).flatMap flat).length = ((ps.filter (fun q => !isInfo q)).map pageSize).sum := by
        rw [List.length_flatMap]
        congr 1
        exact List.map_congr_left (fun q hq => flat_length (hsol q (by simp at hq ⊢; exact Or.inr hq)))
      rw [List.append_eq_nil_iff] at h0
      rw [h0.2] at h2
      simp only [List.length_nil] at h2
      omega
  have hp := (C21_pack (Or.inl rfl) hm junk p ps (by rw [hk']; simp [hkp]) (fun _ => hnames)
    (by rw [hk', hf]; exact hsol) (by rw [hk']; exact hlast) hne).1
  rw [hk', hf] at hp
  refine ⟨_, hp, ?_⟩
  exact unpack_eq es.length e p es _ (Nat.le_refl _) hsh hshs hsol hlast henames

/-- Filling pages none of which is an info page replaces all numbers. -/
theorem fill_all : ∀ (es ds : List (Page α)), (∀ q ∈ es, isInfo q = false) → es.length = ds.length → fill es ds = List.zipWith nums es ds
  | [], [], _, _ => rfl
  | e :: es, d :: ds, h, hl => by
    rw [fill, if_neg (by simp [h e (by simp)])]
    simp [fill_all es ds (fun q hq => h q (by simp [hq])) (by simpa using hl)]

/-- **C21, the round trip with info pages**, when the info pages are among the first two pages of the target (see
`C21_info_pages_refuted` for the others). -/
theorem C21_roundtrip_info {u m : Char} (hu : yes u = true) (hm : yes m = true) (junk : α) (p : Page α) (ps : List (Page α)) (e : Page α) (es : List (Page α))
    (henames : ∀ q ∈ es, q.names ≠ none) (hinfo : ∀ q ∈ es.tail, ¬ Info q)
    (hsolid : ∀ q ∈ p :: ps, Solid q) (hlast : TailsFull ps) (hpos : (p :: ps).flatMap flat ≠ [])
    (hsh : (e :: es).map shape = (p :: ps).map shape) :
    ∃ v, pack junk m u (p :: ps) = .ok (some v) ∧ unpack u v (e :: es) = .ok (List.zipWith nums (e :: es) (p :: ps)) := by
  have hun : u ≠ 'n' := by rintro rfl; simp [yes] at hu
  have hk' : ∀ l : List (Page α), l.filter (kept u) = l := fun l => List.filter_eq_self.2 (by simp [kept, hu])
  have hp := (C21_pack (Or.inr hu) hm junk p ps (by simp [kept, hu]) (fun h => absurd h hun)
    (by rw [hk']; exact hsolid) (by rw [hk']; exact hlast) (by rw [hk']; exact hpos)).1
  rw [hk'] at hp
  refine ⟨_, hp, ?_⟩
  simp only [List.map_cons, List.cons.injEq] at hsh
  obtain ⟨h1, h2⟩ := hsh
  rw [unpack, List.flatMap_cons, takePage_eq (hsolid p (by simp)) h1]
  simp only [Res.bind_ok]
  cases ps with
  | nil =>
    have : es = [] := by simpa using h2
    subst this
    simp
  | cons p2 ps =>
    cases es with
    | nil => simp at h2
    | cons e2 es =>
      simp only [List.map_cons, List.cons.injEq] at h2
      have hl : es.length = ps.length := by simpa using congrArg List.length h2.2
      have hpp := tailsFull_pos hlast (by simp)
      have hlen : ((p2 :: ps).flatMap flat).length = ((p2 :: ps).map pageSize).sum := by
        rw [List.length_flatMap]
        congr 1
        exact List.map_congr_left (fun q hq => flat_length (hsolid q (List.mem_cons_of_mem _ hq)))
      have hno : ∀ q ∈ es, isInfo q = false := by
        intro q hq
        have := hinfo q hq
        rw [← isInfo_iff] at this; simpa using this
      rw [if_pos ⟨by simp only [List.length_append]; omega, by simp⟩,
        if_pos (by simp only [viewOk, List.length_append, decide_eq_true_eq]; omega)]
      have hsk : skipInfo u (e2 :: es) = .ok (e2 :: es) := by rw [skipInfo, if_neg hun]
      split
      · rename_i h; rw [hsk] at h; cases h
      · rename_i h; rw [hsk] at h; cases h
      · rename_i q qs h
        rw [hsk, Res.ok.injEq, List.cons.injEq] at h
        obtain ⟨rfl, rfl⟩ := h
        have hf : es.filter (fun q => !isInfo q) = es := List.filter_eq_self.2 (by intro q hq; simp [hno q hq])
        have := unpack_eq es.length e2 p2 es ps (Nat.le_refl _) h2.1 (by rw [hf]; exact h2.2)
          (fun q hq => hsolid q (List.mem_cons_of_mem _ hq)) (tailsFull_tail hlast) (fun q hq => henames q (by simp [hq]))
        rw [List.drop_left' rfl, this]
        simp [fill_all es ps hno hl]

/-- **C21, one page**: with `.more_pages` anything but 'y' or 'Y', only the first page is packed. -/
theorem C21_pack_first_page {u m : Char} (hm : yes m = false) (junk : α) (p : Page α) (ps : List (Page α))
    (hfirst : kept u p = true) (hsolid : Solid p) (hpos : flat p ≠ []) : pack junk m u (p :: ps) = .ok (some (flat p)) := by
  have hfl := flat_length hsolid
  have hp : 0 < pageSize p := by rw [← hfl]; exact List.length_pos_iff.2 hpos
  have hcond : (!yes u && (p.names.map (fun n => infoTitle n.title)).getD false) = false := by
    have : (p.names.map (fun n => infoTitle n.title)).getD false = isInfo p := rfl
    rw [this]
    unfold kept at hfirst
    cases h : yes u <;> cases h2 : isInfo p <;> simp_all
  have hsz : sizecount (yes m) (yes u) (p :: ps) = pageSize p := by
    rw [sizecount, hcond, hm]; simp
  rw [pack, if_neg (by rw [hsz]; omega), hsz, packInto, if_neg (by rw [hsz]; simp), if_neg (by rw [hsz]; omega),
    putPage_eq hsolid (by simp)]
  simp [hm]

/-- **C21, a given output vector** of the wrong size is left alone and NULL is returned. -/
theorem C21_pack_wrong_size (m u : Char) (ps : List (Page α)) (out : List α)
    (h : out.length ≠ sizecount (yes m) (yes u) ps) : packInto m u ps out = .ok (out, false) := by
  cases ps with
  | nil => rw [packInto]
  | cons p ps => rw [packInto, if_pos h]

/-! ### Where the full statement fails, and examples -/

/-- A page with a title and one vector. -/
def vpage (t : String) (v : List Int) : Page Int :=
  { vector := some v, names := some { Names.alloc with title := some (str t) } }

/-- A page that has a title only (as one holding text). -/
def epage (t : String) : Page Int := { names := some { Names.alloc with title := some (str t) } }

theorem vpage_solid (t : String) (v : List Int) (h : v ≠ []) : Solid (vpage t v) :=
  ⟨by intro w hw; simp only [vpage, Option.some.injEq] at hw; subst hw; exact h, (by intro m hm; cases hm), (by intro w hw; cases hw)⟩

/-- The hypotheses of the round trip are met by a three page set whose middle page is an info page. -/
example : ∃ v, pack 0 'y' 'n' [vpage "a" [1, 2], vpage "<Info>" [3], vpage "b" [4]] = .ok (some v) ∧
    unpack 'n' v [vpage "a" [0, 0], vpage "b" [0]] =
      .ok (nums (vpage "a" [0, 0]) (vpage "a" [1, 2]) :: fill [vpage "b" [0]] [vpage "b" [4]]) := by
  have hf : [vpage "<Info>" [3], vpage "b" [4]].filter (fun q => !isInfo q) = [vpage "b" [4]] := by decide +kernel
  have := C21_roundtrip (m := 'y') rfl (0 : Int) (vpage "a" [1, 2]) [vpage "<Info>" [3], vpage "b" [4]] (vpage "a" [0, 0]) [vpage "b" [0]]
    (by rw [← isInfo_iff]; decide +kernel) (by simp [vpage]) (by simp [vpage])
    (by intro q hq; simp only [List.mem_cons, List.not_mem_nil, or_false] at hq; rcases hq with rfl | rfl | rfl <;> exact vpage_solid _ _ (by simp))
    (by rw [hf]; simp [TailsFull, pageSize, vpage]) (Or.inl (by simp [flat, vpage])) rfl (by decide +kernel)
  rw [hf] at this
  exact this

/-- The claim fails when the *first* page is an info page and info pages are not asked for: the page is left out of the
count and yet written, here past the end of the vector. -/
theorem C21_first_info_refuted : pack 0 'y' 'n' [vpage "<Info>" [1, 2, 3], vpage "b" [4]] = .ub := by decide +kernel

/-- The claim fails with `.use_info_pages='y'` when an info page comes third or later: packing includes it, unpacking
skips it, so page "c" gets the info page's number. -/
theorem C21_info_pages_refuted :
    pack 0 'y' 'y' [vpage "a" [1], vpage "b" [2], vpage "<Info>" [3], vpage "c" [4]] = .ok (some [1, 2, 3, 4]) ∧
    unpack 'y' [1, 2, 3, 4] [vpage "a" [0], vpage "b" [0], vpage "<Info>" [0], vpage "c" [0]] =
      .ok [vpage "a" [1], vpage "b" [2], vpage "<Info>" [0], vpage "c" [3]] := by
  constructor <;> decide +kernel

/-- The claim fails when the last page has no numbers (a text page, say): GSL's range check is violated. -/
theorem C21_text_page_last_refuted : pack 0 'y' 'n' [vpage "a" [1], epage "notes"] = .ub := by decide +kernel

/-- Any other character for `.use_info_pages`, 'N' for one, counts as "no" for the size and as "yes" for the writing. -/
theorem C21_capital_N_refuted : pack 0 'y' 'N' [vpage "a" [1], vpage "<Info>" [2, 3], vpage "b" [4]] = .ub := by decide +kernel

end Apop.Pack
