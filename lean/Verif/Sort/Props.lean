import Verif.Sort.Lex

/-! # Sorting: C18, C19, C20 -/

namespace Apop.Sort
open Apop.Views Apop.Rows
variable {α : Type}

/-! ### concrete sorters and data, for the examples -/

/-- Compare two positions of a list by their elements. -/
def idxLe {κ : Type} (lek : κ → κ → Bool) (ks : List κ) (i j : Nat) : Bool :=
  match ks[i]?, ks[j]? with
  | some a, some b => lek a b
  | none, some _ => false
  | _, none => true

/-- A library sort that meets the assumption (merge sort of the indices). -/
def mergeSorters (le : α → α → Bool) : Sorters α where
  nums ks := (List.range ks.length).mergeSort (idxLe le ks)
  strs ks := (List.range ks.length).mergeSort (idxLe strLe ks)

/-- The assumption on the library sorts can be met for every total preorder. -/
theorem mergeSorters_ok (le : α → α → Bool) (h : Preord le) : (mergeSorters le).Ok le := by
  have key : ∀ {κ : Type} (lek : κ → κ → Bool) (_ : Preord lek) (ks : List κ),
      ((List.range ks.length).mergeSort (idxLe lek ks)).Pairwise
      (fun i j => ∀ a b, ks[i]? = some a → ks[j]? = some b → lek a b = true) := by
    intro κ lek hk ks
    refine (List.pairwise_mergeSort ?_ ?_ (List.range ks.length)).imp ?_
    · intro a b c h1 h2
      unfold idxLe at *
      cases ha : ks[a]? <;> cases hb : ks[b]? <;> cases hc : ks[c]? <;> simp_all
      exact hk.trans _ _ _ h1 h2
    · intro a b
      unfold idxLe
      cases ha : ks[a]? <;> cases hb : ks[b]? <;> simp
      exact hk.total _ _
    · intro i j hij a b ha hb
      simpa [idxLe, ha, hb] using hij
  exact ⟨fun ks => List.mergeSort_perm _ _, key le h, fun ks => List.mergeSort_perm _ _, key strLe strPreord⟩

/-- `<=` on naturals. -/
def leN (a b : Nat) : Bool := decide (a ≤ b)

theorem leN_preord : Preord leN :=
  ⟨fun a b => by simp only [leN, decide_eq_true_eq]; omega, fun a b c => by simp only [leN, decide_eq_true_eq]; omega⟩

/-- Insertion sort of the indices, for closed evaluation in the refutations. -/
def insSorters (le : α → α → Bool) : Sorters α where
  nums ks := (List.range ks.length).foldr (fun i acc =>
    acc.takeWhile (fun j => match ks[j]?, ks[i]? with | some a, some b => le a b && !le b a | _, _ => false) ++ [i] ++
    acc.dropWhile (fun j => match ks[j]?, ks[i]? with | some a, some b => le a b && !le b a | _, _ => false)) []
  strs ks := (List.range ks.length).foldr (fun i acc =>
    acc.takeWhile (fun j => match ks[j]?, ks[i]? with | some a, some b => strLe a b && !strLe b a | _, _ => false) ++ [i] ++
    acc.dropWhile (fun j => match ks[j]?, ks[i]? with | some a, some b => strLe a b && !strLe b a | _, _ => false)) []

/-- Three rows: a vector with a tie, a matrix column, weights and one text column. -/
def ex3 : Page Nat :=
  { vector := some [2, 1, 2], matrix := some ⟨[[7], [8], [5]], 1⟩, weights := some [10, 20, 30],
    text := [[str "x"], [str "y"], [str "z"]], textsize := (3, 1), names := some {} }

theorem ex3_ok : ex3.WF ∧ Rect ex3 3 ∧ NoRowNames ex3 := by
  refine ⟨⟨?_, ?_, ?_⟩, ⟨?_, ?_, ?_, ?_, ?_⟩, ?_⟩ <;> simp [ex3, Page.TextWF, Mat.size1, Mat.WF, NoRowNames] <;>
  first | (intro m hm; subst hm; simp) | skip

/-! ### C18 -/

/-- **C18.** For every rectangular data set and every permutation of its rows, the cycle-following
rearrangement terminates without undefined behaviour, and row `i` of every part of the result (vector, matrix,
weights, text, row names) is row `perm[i]` of the original. -/
theorem C18_rearrange (junk : α) (p : Page α) (n : Nat) (hp : p.WF) (hr : Rect p n) (perm : List Nat)
    (hperm : perm.Perm (List.range n)) :
    ∃ q, rearrange junk p perm = .ok q ∧
      (∀ i t : Nat, perm[i]? = some t →
        q.vector.bind (·[i]?) = p.vector.bind (·[t]?) ∧
        q.weights.bind (·[i]?) = p.weights.bind (·[t]?) ∧
        q.matrix.bind (·.rows[i]?) = p.matrix.bind (·.rows[t]?) ∧
        q.text[i]? = p.text[t]? ∧
        q.names.bind (·.row[i]?) = p.names.bind (·.row[t]?)) ∧
      Rect q n ∧ q.textsize = p.textsize ∧ q.matrix.map (·.cols) = p.matrix.map (·.cols) ∧
      q.names.map (fun nm => (nm.title, nm.vector, nm.col, nm.text)) =
        p.names.map (fun nm => (nm.title, nm.vector, nm.col, nm.text)) ∧ q.error = p.error := by
  have hb := below_of_perm hperm
  have hlen : perm.length = n := by simpa using hperm.length_eq
  refine ⟨_, rearrange_eq junk hp hr perm hperm, ?_, ?_, ?_, ?_, ?_, rfl⟩
  · intro i t hi
    have one : ∀ {β : Type} (l : List β), l.length = n → (pick perm l)[i]? = l[t]? := by
      intro β l hl
      rw [shows_get hb hl, hi]; rfl
    refine ⟨?_, ?_, ?_, text_pick hp hr hb i t hi, ?_⟩
    · simp only [gather]
      cases h : p.vector with
      | none => rfl
      | some v => simp [one v (hr.vec v h)]
    · simp only [gather]
      cases h : p.weights with
      | none => rfl
      | some v => simp [one v (hr.wts v h)]
    · simp only [gather]
      cases h : p.matrix with
      | none => rfl
      | some v => simp [one v.rows (hr.mat v h)]
    · simp only [gather]
      cases h : p.names with
      | none => rfl
      | some nm =>
        rcases hr.nms nm h with e | e
        · simp [one nm.row e]
        · simp [e, pick_nil]
  · by_cases h0 : n = 0
    · subst h0
      have : perm = [] := List.eq_nil_of_length_eq_zero hlen
      subst this
      refine ⟨?_, ?_, ?_, ?_, ?_⟩ <;> simp [gather, pick, Mat.size1] <;>
      first | (intros; subst_vars; rfl) | skip
    · have := (rect_gather hp hr perm hb (by omega)).2
      rwa [hlen] at this
  · simp only [gather, hlen]
    rcases hr.txt with h | h
    · split
      · next h0 => rw [← h0]
      · rw [← h]
    · rw [if_pos h, ← h]
  · simp only [gather, Option.map_map]; rfl
  · simp only [gather, Option.map_map]; rfl

/-- Non-vacuity: a 3-cycle on a set with all parts. -/
example : ex3.WF ∧ Rect ex3 3 ∧ [2, 0, 1].Perm (List.range 3) := ⟨ex3_ok.1, ex3_ok.2.1, by decide⟩

/-! ### C19 -/

/-- **C19, one sort column** (any column, also the row names; ascending or descending): the result has the
input's rows in an order `π` that sorts them by that column; all parts, row names included, move
together. -/
theorem C19_one_column (junk : α) (le : α → α → Bool) (S : Sorters α) (hS : S.Ok le) (desc : Bool) (c : Col)
    (p : Page α) (n : Nat) (hp : p.WF) (hr : Rect p n) (hc : HasCol p n c) :
    ∃ π, π.Perm (List.range n) ∧ sortBy junk le S desc [c] p = .ok (gather π p) ∧
      π.Pairwise (fun i j => if desc then CellLe le p c j i else CellLe le p c i j) := by
  obtain ⟨π, h1, h2, h3⟩ := sortBy_one junk hS desc c hp hr hc
  refine ⟨π, h2, h1, h3.imp ?_⟩
  intro a b h
  simp only [LexLeD, LexLe] at h
  split at h
  · next e => rw [if_pos e]; exact h.1
  · next e => rw [if_neg e]; exact h.1

/-- **C19, any list of sort columns**, for sets without row names and text columns in which strings equal up to
case are equal: the result has the input's rows, whole, in an order `π` that is lexicographic by the
columns. `LexLe p cs i j` is about the rows `i`, `j` of the *input*. -/
theorem C19_lexicographic (junk : α) (le : α → α → Bool) (hle : Preord le) (S : Sorters α) (hS : S.Ok le)
    (cs : List Col) (hcs : cs ≠ []) (p : Page α) (n : Nat) (hp : p.WF) (hr : Rect p n) (hn : NoRowNames p) (hn0 : 0 < n)
    (hc : ∀ c ∈ cs, HasCol p n c) (hcc : ∀ c ∈ cs, CaseClean p c) :
    ∃ π, π.Perm (List.range n) ∧ sortBy junk le S false cs p = .ok (gather π p) ∧ π.Pairwise (LexLe le p cs) := by
  obtain ⟨π, h1, h2, h3⟩ := sortBy_ok junk hle hS cs hcs false p n hp hr hn hn0 hc hcc
  exact ⟨π, h2, h1, h3.imp (fun {a b} h => (lexLeD_asc le cs a b).1 h)⟩

theorem ex3_cols : ∀ c ∈ [Col.vec, .mat 0, .text 0, .wts], HasCol ex3 3 c ∧ CaseClean ex3 c := by
  have t0 : ∀ (x : Nat) a, txtAt ex3 (.text 0) x = some a → (x = 0 ∧ a = str "x") ∨ (x = 1 ∧ a = str "y") ∨ (x = 2 ∧ a = str "z") := by
    intro x a h
    match x with
    | 0 => left; exact ⟨rfl, by simpa [txtAt, ex3] using h.symm⟩
    | 1 => right; left; exact ⟨rfl, by simpa [txtAt, ex3] using h.symm⟩
    | 2 => right; right; exact ⟨rfl, by simpa [txtAt, ex3] using h.symm⟩
    | x + 3 => simp [txtAt, ex3] at h
  intro c hc
  simp only [List.mem_cons, List.not_mem_nil, or_false] at hc
  rcases hc with rfl | rfl | rfl | rfl
  · exact ⟨rfl, by intro x y a b ha; cases ha⟩
  · exact ⟨⟨_, rfl, by decide⟩, by intro x y a b ha; cases ha⟩
  · refine ⟨⟨rfl, by decide⟩, ?_⟩
    intro x y a b ha hb hab
    rcases t0 x a ha with ⟨-, rfl⟩ | ⟨-, rfl⟩ | ⟨-, rfl⟩ <;> rcases t0 y b hb with ⟨-, rfl⟩ | ⟨-, rfl⟩ | ⟨-, rfl⟩ <;>
      first | rfl | (revert hab; decide +kernel)
  · exact ⟨rfl, by intro x y a b ha; cases ha⟩

/-- Non-vacuity: the hypotheses hold of `ex3` with the merge sort, sorting by vector, then matrix column 0, text
and weights. -/
example : ∃ π, π.Perm (List.range 3) ∧
    sortBy 0 leN (mergeSorters leN) false [.vec, .mat 0, .text 0, .wts] ex3 = .ok (gather π ex3) ∧
    π.Pairwise (LexLe leN ex3 [.vec, .mat 0, .text 0, .wts]) :=
  C19_lexicographic 0 leN leN_preord _ (mergeSorters_ok leN leN_preord) _ (by simp) ex3 3 ex3_ok.1 ex3_ok.2.1
    ex3_ok.2.2 (by omega) (fun c h => (ex3_cols c h).1) (fun c h => (ex3_cols c h).2)

/-- The columns of the default order exist, in the documented order: vector, matrix columns, text, weights, row
names. -/
theorem defaultOrder_ok (p : Page α) (n : Nat) (hr : Rect p n) (hnm : p.names.isSome) :
    ∃ cs, defaultOrder p = .ok cs ∧ ∀ c ∈ cs, HasCol p n c := by
  obtain ⟨nm, hnm⟩ := Option.isSome_iff_exists.1 hnm
  simp only [defaultOrder, hnm, Res.ok.injEq, exists_eq_left']
  intro c hc
  simp only [List.mem_append] at hc
  rcases hc with (((h | h) | h) | h) | h
  · split at h
    · next hv => simp only [List.mem_singleton] at h; subst h; exact hv
    · cases h
  · cases hm : p.matrix with
    | none => rw [hm] at h; cases h
    | some m =>
      rw [hm] at h
      obtain ⟨j, hj, rfl⟩ := List.mem_map.1 h
      exact ⟨m, hm, by simpa using hj⟩
  · split at h
    · next ht =>
      obtain ⟨j, hj, rfl⟩ := List.mem_map.1 h
      exact ⟨hr.txt.resolve_right ht, by simpa using hj⟩
    · cases h
  · split at h
    · next hv => simp only [List.mem_singleton] at h; subst h; exact hv
    · cases h
  · split at h
    · next hv =>
      simp only [List.mem_singleton] at h; subst h
      exact ⟨nm, hnm, (hr.nms nm hnm).resolve_right hv⟩
    · cases h

/-- Specification: the documented default order, "by the vector, then each matrix column, then text, then weights"
(for a set without row names). -/
def documentedOrder (p : Page α) : List Col :=
  (p.vector.toList.map fun _ => Col.vec) ++
  (p.matrix.toList.flatMap fun m => (List.range m.cols).map Col.mat) ++
  (List.range p.textsize.2).map Col.text ++
  (p.weights.toList.map fun _ => Col.wts)

/-- **C19, `apop_data_sort(data)` as called with no other argument**: in place, the first page is the input's
rows in lexicographic order by vector, matrix columns, text columns and weights, and the other pages are
untouched. Same restrictions as above; the set has at least one part. -/
theorem C19_default (junk : α) (le : α → α → Bool) (hle : Preord le) (S : Sorters α) (hS : S.Ok le)
    (p : Page α) (rest : List (Page α)) (n : Nat) (hp : p.WF) (hr : Rect p n) (hn : NoRowNames p) (hnm : p.names.isSome) (hn0 : 0 < n)
    (hcc : ∀ j, CaseClean p (.text j))
    (hsome : p.vector.isSome ∨ (∃ m, p.matrix = some m ∧ m.cols ≠ 0) ∨ p.textsize.1 ≠ 0 ∨ p.weights.isSome) :
    ∃ π, π.Perm (List.range n) ∧
      sort junk le S (p :: rest) false true = .ok (gather π p :: rest, gather π p :: rest) ∧
      π.Pairwise (LexLe le p (documentedOrder p)) := by
  obtain ⟨cs, d1, d2⟩ := defaultOrder_ok p n hr hnm
  have hne : cs ≠ [] := by
    obtain ⟨nm, hnm'⟩ := Option.isSome_iff_exists.1 hnm
    simp only [defaultOrder, hnm', Res.ok.injEq] at d1
    intro e
    rw [e] at d1
    simp only [List.append_eq_nil_iff] at d1
    obtain ⟨⟨⟨⟨a, b⟩, c⟩, d⟩, -⟩ := d1
    rcases hsome with h | ⟨m, hm, hm'⟩ | h | h
    · simp [h] at a
    · simp [hm, hm'] at b
    · have : p.textsize.2 ≠ 0 := fun e => h (hp.2.2.2 e)
      simp [h, this] at c
    · simp [h] at d
  obtain ⟨π, h1, h2, h3⟩ := C19_lexicographic junk le hle S hS cs hne p n hp hr hn hn0 d2 (by
    intro c hc
    cases c with
    | text j => exact hcc j
    | name =>
      obtain ⟨nm, e1, e2⟩ := d2 _ hc
      rw [hn nm e1] at e2; simp at e2; omega
    | vec => intro x y a b ha; cases ha
    | wts => intro x y a b ha; cases ha
    | mat j => intro x y a b ha; cases ha)
  have hdoc : cs = documentedOrder p := by
    obtain ⟨nm, hnm'⟩ := Option.isSome_iff_exists.1 hnm
    simp only [defaultOrder, hnm', Res.ok.injEq, hn nm hnm'] at d1
    rw [← d1]
    unfold documentedOrder
    have t : (if p.textsize.1 ≠ 0 then (List.range p.textsize.2).map Col.text else []) = (List.range p.textsize.2).map Col.text := by
      split
      · rfl
      · next h => simp only [ne_eq, Decidable.not_not] at h; simp [hp.2.2.1 h]
    rw [t]
    cases p.vector <;> cases p.matrix <;> cases p.weights <;> simp
  refine ⟨π, h1, ?_, hdoc ▸ h3⟩
  simp only [sort, if_true, d1, Res.bind_ok, h2]

/-- Non-vacuity of `C19_default`. -/
example : ex3.names.isSome ∧ (∀ j, CaseClean ex3 (.text j)) ∧ ex3.vector.isSome := by
  refine ⟨rfl, ?_, rfl⟩
  intro j
  match j with
  | 0 => exact (ex3_cols _ (by simp)).2
  | j + 1 =>
    intro x y a b ha
    match x with
    | 0 => simp [txtAt, ex3] at ha
    | 1 => simp [txtAt, ex3] at ha
    | 2 => simp [txtAt, ex3] at ha
    | x + 3 => simp [txtAt, ex3] at ha

/-! ### the order of the columns -/

theorem smallestLarger_spec {ρ : Type} (lt : ρ → ρ → Bool) (hirr : ∀ a, lt a a = false)
    (htr : ∀ a b c, lt a b = true → lt b c = true → lt a c = true) (htot : ∀ a b, lt a b = false → lt b a = false → a = b)
    (x : Option ρ) : ∀ (cs : List (Cand ρ)) (best : Option (ρ × Col)),
    match smallestLarger lt x cs best with
    | none => best = none ∧ ∀ c ∈ cs, ∀ v, c.rank = some v → above lt x v = false
    | some (v, c) => ((best = some (v, c)) ∨ (∃ d ∈ cs, d.rank = some v ∧ d.col = c ∧ above lt x v = true)) ∧
        (∀ b, best = some b → lt b.1 v = false) ∧ (∀ d ∈ cs, ∀ w, d.rank = some w → above lt x w = true → lt w v = false) := by
  intro cs
  induction cs with
  | nil =>
    intro best
    simp only [smallestLarger]
    cases best with
    | none => simp
    | some b => simp [hirr]
  | cons c cs ih =>
    intro best
    simp only [smallestLarger]
    cases hc : c.rank with
    | none =>
      rw [show better lt x c best = best by simp [better, hc]]
      have := ih best
      cases hs : smallestLarger lt x cs best with
      | none =>
        rw [hs] at this
        refine ⟨this.1, ?_⟩
        intro d hd v hv
        rcases List.mem_cons.1 hd with rfl | hd
        · rw [hc] at hv; cases hv
        · exact this.2 d hd v hv
      | some vc =>
        rw [hs] at this
        obtain ⟨t1, t2, t3⟩ := this
        refine ⟨t1.imp id (fun ⟨d, h1, h2⟩ => ⟨d, by simp [h1], h2⟩), t2, ?_⟩
        intro d hd w hw
        rcases List.mem_cons.1 hd with rfl | hd
        · rw [hc] at hw; cases hw
        · exact t3 d hd w hw
    | some w0 =>
      by_cases h : (above lt x w0 && beats lt w0 best) = true
      · rw [show better lt x c best = some (w0, c.col) by simp only [better, hc, if_pos h]]
        simp only [Bool.and_eq_true] at h
        have := ih (some (w0, c.col))
        cases hs : smallestLarger lt x cs (some (w0, c.col)) with
        | none => rw [hs] at this; exact absurd this.1 (by simp)
        | some vc =>
          rw [hs] at this
          obtain ⟨t1, t2, t3⟩ := this
          have t2' := t2 _ rfl
          refine ⟨Or.inr ?_, ?_, ?_⟩
          · rcases t1 with e | ⟨d, h1, h2⟩
            · simp only [Option.some.injEq, Prod.mk.injEq] at e
              exact ⟨c, by simp, by rw [hc, e.1], e.2, by rw [← e.1]; exact h.1⟩
            · exact ⟨d, by simp [h1], h2⟩
          · intro b hb
            subst hb
            cases hlt : lt b.1 vc.1 with
            | false => rfl
            | true =>
              have : lt w0 vc.1 = true := htr _ _ _ h.2 hlt
              simp only at t2'
              rw [this] at t2'; cases t2'
          · intro d hd w hw ha
            rcases List.mem_cons.1 hd with rfl | hd
            · rw [hc] at hw; cases hw; exact t2'
            · exact t3 d hd w hw ha
      · rw [show better lt x c best = best by simp only [better, hc, if_neg h]]
        have := ih best
        cases hs : smallestLarger lt x cs best with
        | none =>
          rw [hs] at this
          refine ⟨this.1, ?_⟩
          intro d hd v hv
          rcases List.mem_cons.1 hd with rfl | hd
          · rw [hc] at hv; cases hv
            rw [this.1] at h
            simpa [beats] using h
          · exact this.2 d hd v hv
        | some vc =>
          rw [hs] at this
          obtain ⟨t1, t2, t3⟩ := this
          refine ⟨t1.imp id (fun ⟨d, h1, h2⟩ => ⟨d, by simp [h1], h2⟩), t2, ?_⟩
          intro d hd w hw ha
          rcases List.mem_cons.1 hd with rfl | hd
          · rw [hc] at hw; cases hw
            cases best with
            | none => simp [ha, beats] at h
            | some b =>
              simp only [ha, Bool.true_and, Bool.not_eq_true, beats] at h
              have t2' := t2 b rfl
              -- b.1 ≤ w0, and not b.1 < v, so not w0 < v
              cases hlt : lt w0 vc.1 with
              | false => rfl
              | true =>
                exfalso
                cases hbw : lt b.1 w0 with
                | true => rw [htr _ _ _ hbw hlt] at t2'; cases t2'
                | false =>
                  have := htot _ _ h hbw
                  rw [this] at hlt; rw [hlt] at t2'; cases t2'
          · exact t3 d hd w hw ha

/-- **C19, the sort order set.** When no two ranks in the `sort_order` set are equal, the columns used
are exactly those with a rank (not NaN), in ascending order of rank. -/
theorem C19_order_by_rank {ρ : Type} (lt : ρ → ρ → Bool) (hirr : ∀ a, lt a a = false)
    (htr : ∀ a b c, lt a b = true → lt b c = true → lt a c = true) (htot : ∀ a b, lt a b = false → lt b a = false → a = b)
    (cands : List (Cand ρ)) (hd : cands.Pairwise (fun c d => c.rank ≠ d.rank ∨ c.rank = none)) :
    ∃ sel : List (Cand ρ), sel.Perm (cands.filter (·.rank.isSome)) ∧
      sel.Pairwise (fun c d => ∀ v w, c.rank = some v → d.rank = some w → lt v w = true) ∧
      orderFrom lt cands cands.length none = sel.map (·.col) := by
  let ab : Option ρ → Cand ρ → Bool := fun x c => match c.rank with
    | none => false
    | some v => above lt x v
  have main : ∀ (k : Nat) (x : Option ρ), (cands.filter (ab x)).length ≤ k →
      ∃ sel : List (Cand ρ), sel.Perm (cands.filter (ab x)) ∧
        sel.Pairwise (fun c d => ∀ v w, c.rank = some v → d.rank = some w → lt v w = true) ∧
        orderFrom lt cands k x = sel.map (·.col) := by
    intro k
    induction k with
    | zero =>
      intro x hx
      exact ⟨[], by rw [List.eq_nil_of_length_eq_zero (Nat.le_zero.1 hx)], by simp, rfl⟩
    | succ k ih =>
      intro x hx
      have sp := smallestLarger_spec lt hirr htr htot x cands none
      simp only [orderFrom]
      cases hs : smallestLarger lt x cands none with
      | none =>
        rw [hs] at sp
        refine ⟨[], ?_, by simp, rfl⟩
        have : cands.filter (ab x) = [] := by
          rw [List.filter_eq_nil_iff]
          intro c hc h
          simp only [ab] at h
          cases hr : c.rank with
          | none => rw [hr] at h; cases h
          | some v =>
            rw [hr] at h
            have := sp.2 c hc v hr
            simp only at h this
            rw [this] at h; cases h
        rw [this]
      | some vc =>
        obtain ⟨v, col⟩ := vc
        rw [hs] at sp
        obtain ⟨t1, -, t3⟩ := sp
        rcases t1 with e | ⟨c0, hc0, hr0, hcol, hab⟩
        · cases e
        obtain ⟨l1, l2, hl⟩ := List.append_of_mem hc0
        have hsame : ∀ c ∈ l1 ++ l2, ab x c = ab (some v) c := by
          intro c hc
          have hcm : c ∈ cands := by
            rw [hl]; rcases List.mem_append.1 hc with h | h <;> simp [h]
          have hne : ∀ w, c.rank = some w → w ≠ v := by
            intro w hw e
            subst e
            rw [hl] at hd
            rcases List.mem_append.1 hc with h | h
            · have := (List.pairwise_append.1 hd).2.2 c h c0 (by simp)
              rcases this with h' | h'
              · exact h' (hw.trans hr0.symm)
              · rw [hw] at h'; cases h'
            · have := (List.pairwise_cons.1 (List.pairwise_append.1 hd).2.1).1 c h
              rcases this with h' | h'
              · exact h' (hr0.trans hw.symm)
              · rw [hr0] at h'; cases h'
          simp only [ab]
          cases hw : c.rank with
          | none => rfl
          | some w =>
            simp only []
            have h3 := t3 c hcm w hw
            show above lt x w = above lt (some v) w
            cases hax : above lt x w with
            | true =>
              have h4 := h3 hax
              cases h5 : lt v w with
              | true => exact h5.symm
              | false => exact absurd (htot _ _ h4 h5) (hne w hw)
            | false =>
              cases h5 : lt v w with
              | false => exact h5.symm
              | true =>
                exfalso
                cases x with
                | none => cases hax
                | some x =>
                  simp only [above] at hax hab
                  rw [htr _ _ _ hab h5] at hax; cases hax
        have hab0 : ab x c0 = true := by simp only [ab, hr0]; exact hab
        have habv : ab (some v) c0 = false := by simp only [ab, hr0, above, hirr]
        have hperm : (cands.filter (ab x)).Perm (c0 :: cands.filter (ab (some v))) := by
          rw [hl]
          simp only [List.filter_append, List.filter_cons, hab0, habv, if_true, Bool.false_eq_true, if_false]
          have e1 : l1.filter (ab x) = l1.filter (ab (some v)) :=
            List.filter_congr (fun c hc => hsame c (by simp [hc]))
          have e2 : l2.filter (ab x) = l2.filter (ab (some v)) :=
            List.filter_congr (fun c hc => hsame c (by simp [hc]))
          rw [e1, e2]
          exact List.perm_middle
        have hlen := hperm.length_eq
        simp only [List.length_cons] at hlen
        obtain ⟨sel, q1, q2, q3⟩ := ih (some v) (by omega)
        refine ⟨c0 :: sel, (List.Perm.cons c0 q1).trans hperm.symm, ?_, by simp [q3, hcol]⟩
        rw [List.pairwise_cons]
        refine ⟨?_, q2⟩
        intro d hdm a b ha hb
        rw [hr0] at ha; cases ha
        have := (List.mem_filter.1 (q1.mem_iff.1 hdm)).2
        simpa only [ab, hb, above] using this
  obtain ⟨sel, h1, h2, h3⟩ := main cands.length none (List.length_filter_le _ _)
  refine ⟨sel, ?_, h2, h3⟩
  have : cands.filter (ab none) = cands.filter (·.rank.isSome) := by
    apply List.filter_congr
    intro c _
    simp only [ab]
    cases c.rank <;> rfl
  rw [← this]; exact h1

/-- Non-vacuity: three columns with ranks 7, NaN and 3 are used in the order third, first. -/
example : orderFrom (fun (a b : Nat) => decide (a < b)) [⟨.vec, some 7⟩, ⟨.mat 0, none⟩, ⟨.mat 1, some 3⟩] 3 none =
    [.mat 1, .vec] := by decide

/-- **C19 fails on tied ranks.** "Ties are broken by the earlier element": in fact, the later column is not used
at all. -/
theorem C19_tied_ranks_refuted :
    orderFrom (fun (a b : Nat) => decide (a < b)) [⟨.vec, some 1⟩, ⟨.mat 0, some 1⟩] 2 none = [.vec] := by decide

/-- Two rows tied on the vector, with row names. -/
def exNames : Page Nat :=
  { vector := some [1, 1], matrix := some ⟨[[9], [4]], 1⟩,
    names := some { row := [str "nine", str "four"], rowhash := [djb2 (str "nine"), djb2 (str "four")] } }

/-- **C19 fails with row names.** Within a block of ties the row names do not move with their rows: afterwards
the row holding 4 is called "nine". -/
theorem C19_row_names_refuted :
    ∃ q, sortBy 0 leN (insSorters leN) false [.vec, .mat 0] exNames = .ok q ∧
      q.matrix = some ⟨[[4], [9]], 1⟩ ∧ q.names.map (·.row) = some [str "nine", str "four"] := by
  refine ⟨_, rfl, ?_, ?_⟩ <;> decide +kernel

/-- Two rows equal up to case, to be ordered by the vector next. -/
def exCase : Page Nat :=
  { vector := some [9, 4], text := [[str "A"], [str "a"]], textsize := (2, 1), names := some {} }

/-- **C19 fails on mixed case.** The first key ties ("A" and "a" are equal for `strcasecmp`), but the block is not
sorted by the second key. -/
theorem C19_mixed_case_refuted :
    ∃ q, sortBy 0 leN (insSorters leN) false [.text 0, .vec] exCase = .ok q ∧ q.vector = some [9, 4] ∧
      q.text = [[str "A"], [str "a"]] ∧ caseEq (str "A") (str "a") = true := by
  refine ⟨exCase, ?_, ?_, ?_, ?_⟩ <;> decide +kernel

/-- **C19 fails on a set without columns**: the sort dereferences NULL. -/
theorem C19_no_columns_refuted (junk : α) (le : α → α → Bool) (S : Sorters α) :
    sort junk le S [{ names := some {} }] false true = .ub := by rfl

/-! ### C20 -/

/-- **C20 (partial).** With `asc='d'`, the rows are permuted as a whole and are in descending order of the
*first* chosen column; ties are in *ascending* lexicographic order of the others. Missing: descending order by the
others, which does not hold (`C20_descending_refuted`). -/
theorem C20_descending_partial (junk : α) (le : α → α → Bool) (hle : Preord le) (S : Sorters α) (hS : S.Ok le)
    (c : Col) (cs : List Col) (p : Page α) (n : Nat) (hp : p.WF) (hr : Rect p n) (hn : NoRowNames p) (hn0 : 0 < n)
    (hc : ∀ d ∈ c :: cs, HasCol p n d) (hcc : ∀ d ∈ c :: cs, CaseClean p d) :
    ∃ π, π.Perm (List.range n) ∧ sortBy junk le S true (c :: cs) p = .ok (gather π p) ∧
      π.Pairwise (fun i j => CellLe le p c j i ∧ (CellLe le p c i j → LexLe le p cs i j)) := by
  obtain ⟨π, h1, h2, h3⟩ := sortBy_ok junk hle hS (c :: cs) (by simp) true p n hp hr hn hn0 hc hcc
  refine ⟨π, h2, h1, h3.imp ?_⟩
  intro a b h
  simpa [LexLeD] using h

/-- Non-vacuity. -/
example : ∃ π, π.Perm (List.range 3) ∧
    sortBy 0 leN (mergeSorters leN) true [.vec, .mat 0, .text 0, .wts] ex3 = .ok (gather π ex3) ∧
    π.Pairwise (fun i j => CellLe leN ex3 .vec j i ∧ (CellLe leN ex3 .vec i j → LexLe leN ex3 [.mat 0, .text 0, .wts] i j)) :=
  C20_descending_partial 0 leN leN_preord _ (mergeSorters_ok leN leN_preord) _ _ ex3 3 ex3_ok.1 ex3_ok.2.1
    ex3_ok.2.2 (by omega) (fun c h => (ex3_cols c h).1) (fun c h => (ex3_cols c h).2)

/-- **C20 is refuted for two columns**: sorting (1,4), (1,9) in descending order leaves 4 before 9. -/
theorem C20_descending_refuted :
    ∃ q, sort 0 leN (insSorters leN) [{ vector := some [1, 1], matrix := some ⟨[[4], [9]], 1⟩, names := some {} }]
        true true = .ok ([q], [q]) ∧ q.vector = some [1, 1] ∧ q.matrix = some ⟨[[4], [9]], 1⟩ := by
  refine ⟨_, rfl, ?_, ?_⟩ <;> decide +kernel

end Apop.Sort
