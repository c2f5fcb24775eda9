import Verif.Regress.Unique
import Mathlib.Data.List.GetD
import Mathlib.Tactic.IntervalCases

/-! # C84: factors and dummy variables -/

namespace Apop.Factors
open Apop.Uniq
variable {β γ : Type}

/-! ## The models -/

/-- `bsearch` (the GNU C library's): between `l` and `u`, by halves. The first number bounds the turns (running out of it counts as undefined: a loop without end); `C84_bsearch` shows the length of the list is enough. -/
def bsearch (cmp : β → β → Int) (key : β) (a : List β) : Nat → Nat → Nat → Res (Option Nat)
  | 0, l, u => if l < u then .ub else .ok none
  | n + 1, l, u =>
    if l < u then
      (rd a ((l + u) / 2)).bind fun e =>
        if cmp key e < 0 then bsearch cmp key a n l ((l + u) / 2)
        else if 0 < cmp key e then bsearch cmp key a n ((l + u) / 2 + 1) u
        else .ok (some ((l + u) / 2))
    else .ok none

/-- Where the row's value is in the list of categories, apop_regression.m4.c:217, 228. -/
def find (cmp : β → β → Int) (key : β) (cats : List β) : Res (Option Nat) := bsearch cmp key cats cats.length 0 cats.length

/-- The list of categories: the one found on the data's page, or else the distinct elements, apop_regression.m4.c:163-183, 196-197. -/
def categories (cmp : β → β → Int) (sort : List β → List β) (text : Bool) (page : Option (List β)) (vals : List β) : Res (List β) :=
  match page with
  | some c => .ok c
  | none => if text then textUnique cmp sort vals else vectorUnique cmp sort vals

/-- The dummy matrix and the categories. A cell not yet written is `none`. -/
structure DS (β : Type) where
  cats : List β
  width : Nat
  mat : List (List (Option Nat))
  deriving DecidableEq

/-- `apop_matrix_realloc` (C07) to a greater width. -/
def widen (w : Nat) (m : List (List (Option Nat))) : List (List (Option Nat)) := m.map fun r => r ++ List.replicate (w - r.length) none

/-- A new category, apop_regression.m4.c:220-226 (numbers) and 231-243 (text): the matrix is made wider, and a column set to zero. Without columns there is no matrix. -/
def addCat (text : Bool) (s : DS β) (val : β) : Res (Nat × DS β) :=
  if s.width = 0 then .ub
  else if text then .ok (s.cats.length, ⟨s.cats ++ [val], s.width + 1, (widen (s.width + 1) s.mat).map fun r => r.set s.width (some 0)⟩)
  else .ok (s.cats.length, ⟨s.cats ++ [val], s.cats.length + 1, (widen (s.cats.length + 1) s.mat).map fun r => r.set s.cats.length (some 0)⟩)

/-- The row's category, old or new. -/
def locate (cmp : β → β → Int) (text : Bool) (s : DS β) (val : β) : Res (Nat × DS β) :=
  (find cmp val s.cats).bind fun
    | some ix => .ok (ix, s)
    | none => addCat text s val

/-- `gsl_matrix_set(out->matrix, i, j, 1)`. -/
def setOne (s : DS β) (i j : Nat) : Res (DS β) :=
  (rd s.mat i).bind fun r => (wr r j (some 1)).bind fun r' => .ok { s with mat := s.mat.set i r' }

/-- One row, apop_regression.m4.c:214-251. `keep` is `keep_first != 'n'`. -/
def dummyStep (cmp : β → β → Int) (text keep : Bool) (s : DS β) (i : Nat) (val : β) : Res (DS β) :=
  (locate cmp text s val).bind fun t =>
    if keep then setOne t.2 i t.1
    else if 0 < t.1 then setOne t.2 i (t.1 - 1)
    else .ok t.2

def dummyLoop (cmp : β → β → Int) (text keep : Bool) : DS β → Nat → List β → Res (DS β)
  | s, _, [] => .ok s
  | s, i, v :: vs => (dummyStep cmp text keep s i v).bind fun s' => dummyLoop cmp text keep s' (i + 1) vs

/-- The width of the dummy matrix at first, apop_regression.m4.c:210. -/
def firstWidth (keep : Bool) (cats : List β) : Nat := if keep then cats.length else cats.length - 1

/-- `dummies_and_factors_core` for dummies, apop_regression.m4.c:192-267, less the names, on the values of the column. -/
def dummies (cmp : β → β → Int) (sort : List β → List β) (text keep : Bool) (page : Option (List β)) (vals : List β) : Res (DS β) :=
  (categories cmp sort text page vals).bind fun c =>
    dummyLoop cmp text keep ⟨c, firstWidth keep c, List.replicate vals.length (List.replicate (firstWidth keep c) (some 0))⟩ 0 vals

/-- The data matrix and the categories, for factors. -/
structure FS (β γ : Type) where
  cats : List β
  mat : List (List γ)
  deriving DecidableEq

/-- How the elements of the matrix are read as categories and written as numbers; `zero`, and what is in cells not written. -/
structure Cell (β γ : Type) where
  key : γ → β
  num : Nat → γ
  zero : γ
  junk : γ

/-- A new category when making factors: from text, apop_regression.m4.c:231-238, the data are not touched; from numbers, lines 220-226, it is the *data* matrix that is given as many columns as there are categories. -/
def addFactor (C : Cell β γ) (text : Bool) (s : FS β γ) (val : β) : Nat × FS β γ :=
  if text then (s.cats.length, ⟨s.cats ++ [val], s.mat⟩)
  else (s.cats.length, ⟨s.cats ++ [val], s.mat.map fun r => ((r.take (s.cats.length + 1)) ++ List.replicate (s.cats.length + 1 - r.length) C.junk).set s.cats.length C.zero⟩)

/-- One row, for factors, apop_regression.m4.c:214-252: the value is read from the text or from the matrix as it is now, and its category's number is written. -/
def factorStep (cmp : β → β → Int) (C : Cell β γ) (txt : Option (List β)) (incol outcol : Nat) (s : FS β γ) (i : Nat) : Res (FS β γ) :=
  (match txt with
    | some t => rd t i
    | none => (rd s.mat i).bind fun r => (rd r incol).bind fun x => .ok (C.key x)).bind fun val =>
  (find cmp val s.cats).bind fun f =>
    let t := match f with
      | some ix => (ix, s)
      | none => addFactor C txt.isSome s val
    (rd t.2.mat i).bind fun r => (wr r outcol (C.num t.1)).bind fun r' => .ok { t.2 with mat := t.2.mat.set i r' }

/-- The first `n` rows. -/
def factorLoop (cmp : β → β → Int) (C : Cell β γ) (txt : Option (List β)) (incol outcol : Nat) : FS β γ → Nat → Nat → Res (FS β γ)
  | s, _, 0 => .ok s
  | s, i, n + 1 => (factorStep cmp C txt incol outcol s i).bind fun s' => factorLoop cmp C txt incol outcol s' (i + 1) n

/-! ## bsearch -/

theorem pairwise_get {l : List β} {R : β → β → Prop} (h : l.Pairwise R) {i j : Nat} (hij : i < j) {a b : β} (ha : l[i]? = some a) (hb : l[j]? = some b) : R a b := by
  obtain ⟨hi, rfl⟩ := List.getElem?_eq_some_iff.1 ha
  obtain ⟨hj, rfl⟩ := List.getElem?_eq_some_iff.1 hb
  exact List.pairwise_iff_getElem.1 h i j hi hj hij

theorem bsearch_sound {cmp : β → β → Int} (hc : CmpOk cmp) (key : β) (a : List β) : ∀ n l u, u ≤ a.length → u - l ≤ n →
    ∃ f, bsearch cmp key a n l u = .ok f ∧ ∀ ix, f = some ix → a[ix]? = some key := by
  intro n
  induction n with
  | zero => intro l u _ h; exact ⟨none, by rw [bsearch, if_neg (by omega)], by simp⟩
  | succ n ih =>
    intro l u hu hn
    unfold bsearch
    by_cases hl : l < u
    · rw [if_pos hl]
      have hm : (l + u) / 2 < a.length := by omega
      rw [rd_of_lt hm]
      simp only [Res.bind]
      split_ifs with h1 h2
      · exact ih _ _ (by omega) (by omega)
      · exact ih _ _ hu (by omega)
      · refine ⟨_, rfl, ?_⟩
        rintro ix ⟨⟩
        have : key = a[(l + u) / 2] := (hc.eq _ _).1 (by omega)
        rw [List.getElem?_eq_getElem hm, ← this]
    · rw [if_neg hl]
      exact ⟨none, rfl, by simp⟩

theorem bsearch_complete {cmp : β → β → Int} (hc : CmpOk cmp) (key : β) (a : List β) (hs : a.Pairwise fun x y => cmp x y < 0) (k : Nat) (hk : a[k]? = some key) :
    ∀ n l u, u ≤ a.length → u - l ≤ n → l ≤ k → k < u → bsearch cmp key a n l u = .ok (some k) := by
  intro n
  induction n with
  | zero => intro l u _ h1 h2 h3; omega
  | succ n ih =>
    intro l u hu h1 h2 h3
    unfold bsearch
    have hm : (l + u) / 2 < a.length := by omega
    rw [if_pos (by omega), rd_of_lt hm]
    simp only [Res.bind]
    have hget := List.getElem?_eq_getElem hm
    rcases lt_trichotomy k ((l + u) / 2) with h | h | h
    · rw [if_pos (pairwise_get hs h hk hget)]
      exact ih _ _ (by omega) (by omega) h2 h
    · subst h
      have : key = a[(l + u) / 2] := by rw [hget] at hk; exact (Option.some.inj hk).symm
      have h0 : cmp key a[(l + u) / 2] = 0 := (hc.eq _ _).2 this
      rw [if_neg (by omega), if_neg (by omega)]
    · have := pairwise_get hs h hget hk
      have h0 := (hc.flip _ _).1 this
      rw [if_neg (by omega), if_pos h0]
      exact ih _ _ hu (by omega) (by omega) h3

/-- **C84 (looking up).** In a list in strictly increasing order the search finds exactly the place of the key. In any list, what is found is the key. -/
theorem C84_bsearch {cmp : β → β → Int} (hc : CmpOk cmp) (key : β) (a : List β) :
    (∃ f, find cmp key a = .ok f ∧ ∀ ix, f = some ix → a[ix]? = some key) ∧
    ((a.Pairwise fun x y => cmp x y < 0) → ∀ k, find cmp key a = .ok (some k) ↔ a[k]? = some key) := by
  refine ⟨bsearch_sound hc key a _ _ _ le_rfl (by omega), ?_⟩
  intro hs k
  constructor
  · intro h
    obtain ⟨f, h1, h2⟩ := bsearch_sound hc key a a.length 0 a.length le_rfl (by omega)
    rw [find, h1] at h
    exact h2 k (by injection h)
  · intro hk
    have := (List.getElem?_eq_some_iff.1 hk).1
    exact bsearch_complete hc key a hs k hk _ _ _ le_rfl (by omega) (by omega) this

/-! ## Dummies -/

/-- The dummy row of a value. -/
def dummyRow [DecidableEq β] (cols : List β) (v : β) : List (Option Nat) := cols.map fun c => if c = v then some 1 else some 0

theorem set_one_row [DecidableEq β] (cats : List β) (hn : cats.Nodup) (k : Nat) (v : β) (hk : cats[k]? = some v) :
    (List.replicate cats.length (some 0)).set k (some 1) = dummyRow cats v := by
  apply List.ext_getElem?
  intro j
  rw [List.getElem?_set, dummyRow, List.getElem?_map]
  by_cases hj : j < cats.length
  · rw [List.getElem?_eq_getElem hj]
    by_cases hkj : k = j
    · subst hkj
      rw [List.getElem?_eq_getElem hj] at hk
      have : cats[k] = v := by simpa using hk
      simp [hj, this]
    · obtain ⟨hk1, hk2⟩ := List.getElem?_eq_some_iff.1 hk
      have : cats[j] ≠ v := by
        intro h
        rw [← hk2] at h
        exact hkj ((List.Nodup.getElem_inj_iff hn).1 h).symm
      simp [hj, hkj, this]
  · have : cats[j]? = none := List.getElem?_eq_none (by omega)
    simp [this, show ¬ k = j by rintro rfl; rw [hk] at this; simp at this]
    omega

theorem dummyLoop_spec [DecidableEq β] {cmp : β → β → Int} (hc : CmpOk cmp) (text keep : Bool) (cats : List β) (hs : cats.Pairwise fun x y => cmp x y < 0) (vals : List β) (hv : ∀ v ∈ vals, v ∈ cats) :
    ∀ done : List (List (Option Nat)), dummyLoop cmp text keep ⟨cats, firstWidth keep cats, done ++ List.replicate vals.length (List.replicate (firstWidth keep cats) (some 0))⟩ done.length vals =
      .ok ⟨cats, firstWidth keep cats, done ++ vals.map fun v => dummyRow (if keep then cats else cats.tail) v⟩ := by
  induction vals with
  | nil => intro done; simp [dummyLoop]
  | cons v vs ih =>
    intro done
    obtain ⟨k, hk⟩ := List.getElem?_of_mem (hv v (by simp))
    have hf := (C84_bsearch hc v cats).2 hs k |>.2 hk
    have hkl := (List.getElem?_eq_some_iff.1 hk).1
    have hnd := strict_nodup hc hs
    have hrd : ∀ (rest : List (List (Option Nat))) (x : List (Option Nat)), rd (done ++ x :: rest) done.length = .ok x := by
      intro rest x; rw [rd_eq_ok]; simp
    have step : dummyStep cmp text keep ⟨cats, firstWidth keep cats, done ++ List.replicate (v :: vs).length (List.replicate (firstWidth keep cats) (some 0))⟩ done.length v =
        .ok ⟨cats, firstWidth keep cats, (done ++ [dummyRow (if keep then cats else cats.tail) v]) ++ List.replicate vs.length (List.replicate (firstWidth keep cats) (some 0))⟩ := by
      rw [dummyStep, locate]
      simp only [hf, Res.bind, List.length_cons, List.replicate_succ]
      cases keep with
      | true =>
        simp only [if_true, setOne, hrd, Res.bind, firstWidth]
        rw [wr_of_lt (by simpa using hkl)]
        simp only [Res.ok.injEq, DS.mk.injEq, true_and, set_one_row cats hnd k v hk]
        simp
      | false =>
        simp only [Bool.false_eq_true, if_false, firstWidth]
        cases cats with
        | nil => simp at hk
        | cons c cs =>
          have hnd' := List.nodup_cons.1 hnd
          cases k with
          | zero =>
            simp at hk
            subst hk
            simp only [lt_irrefl, if_false, List.length_cons, Nat.add_sub_cancel, List.tail_cons]
            have e : dummyRow cs c = List.replicate cs.length (some 0) := by
              rw [dummyRow, List.eq_replicate_iff]
              refine ⟨by simp, ?_⟩
              intro x hx
              obtain ⟨y, hy, rfl⟩ := List.mem_map.1 hx
              rw [if_neg]
              rintro rfl
              exact hnd'.1 hy
            simp [e]
          | succ k =>
            simp only [List.getElem?_cons_succ] at hk
            simp only [Nat.succ_pos, if_true, setOne, hrd, Res.bind, Nat.add_sub_cancel, List.length_cons, List.tail_cons]
            rw [wr_of_lt (by simpa using hkl)]
            simp only [Res.ok.injEq, DS.mk.injEq, true_and, set_one_row cs hnd'.2 k v hk]
            simp
    rw [dummyLoop, step]
    simp only [Res.bind]
    have := ih (fun w hw => hv w (by simp [hw])) (done ++ [dummyRow (if keep then cats else cats.tail) v])
    simp only [List.length_append, List.length_cons, List.length_nil, zero_add] at this
    rw [this]
    simp

/-- **C84 (dummies).** For any column of numbers or text (with a row, if text) not seen before, the categories are its distinct elements in order, and the matrix has in row `i`, in the column of each category (of each but the first, unless it is kept), a one if that is the row's value and else a zero. So with the first kept each row has exactly one 1. -/
theorem C84_dummies [DecidableEq β] {cmp : β → β → Int} {sort : List β → List β} (hc : CmpOk cmp) (hs : Sorts cmp sort) (text keep : Bool) (vals : List β) (hv : text = true → vals ≠ []) :
    ∃ cats s, DistinctSorted cmp vals cats ∧ dummies cmp sort text keep none vals = .ok s ∧ s.cats = cats ∧
      s.mat = vals.map fun v => (if keep then cats else cats.tail).map fun c => if c = v then some 1 else some 0 := by
  obtain ⟨cats, h1, h2⟩ : ∃ cats, categories cmp sort text none vals = .ok cats ∧ DistinctSorted cmp vals cats := by
    unfold categories
    cases text with
    | true => exact C83_text hc hs vals (hv rfl)
    | false => exact C83_vector hc hs vals
  have := dummyLoop_spec hc text keep cats h2.1 vals (fun v hv => (h2.2 v).2 hv) []
  simp only [List.nil_append, List.length_nil] at this
  exact ⟨cats, _, h2, by rw [dummies, h1]; exact this, rfl, rfl⟩

/-- **C84 (one 1 in each row).** -/
theorem C84_one_hot [DecidableEq β] {cmp : β → β → Int} {sort : List β → List β} (hc : CmpOk cmp) (hs : Sorts cmp sort) (text : Bool) (vals : List β) (hv : text = true → vals ≠ []) (s : DS β)
    (h : dummies cmp sort text true none vals = .ok s) : ∀ r ∈ s.mat, r.count (some 1) = 1 ∧ ∀ x ∈ r, x = some 0 ∨ x = some 1 := by
  obtain ⟨cats, s', h1, h2, h3, h4⟩ := C84_dummies hc hs text true vals hv
  rw [h] at h2
  injection h2 with h2
  subst h2
  rw [h4]
  intro r hr
  obtain ⟨v, hv, rfl⟩ := List.mem_map.1 hr
  simp only [if_true]
  constructor
  · have e : ∀ l : List β, (l.map fun c => if c = v then some 1 else some 0).count (some 1) = l.count v := by
      intro l
      induction l with
      | nil => simp
      | cons a l ih =>
        rw [List.map_cons, List.count_cons, List.count_cons, ih]
        by_cases hav : a = v <;> simp [hav]
    rw [e]
    exact List.count_eq_one_of_mem (strict_nodup hc h1.1) ((h1.2 v).2 hv)
  · intro x hx
    obtain ⟨c, -, rfl⟩ := List.mem_map.1 hx
    split_ifs <;> simp

/-! ## Factors -/

/-- What a run of the loop over rows `i ..` has done: the categories have only been added to, and each row is as before but for the out column, where there is the number of the row's category. -/
structure Coded (C : Cell β γ) (outcol : Nat) (s s' : FS β γ) (lo hi : Nat) (val : Nat → Option β) : Prop where
  grow : ∃ more, s'.cats = s.cats ++ more
  len : s'.mat.length = s.mat.length
  other : ∀ i, i < lo ∨ hi ≤ i → s'.mat[i]? = s.mat[i]?
  coded : ∀ i, lo ≤ i → i < hi → ∃ r v ix, s.mat[i]? = some r ∧ val i = some v ∧ s'.cats[ix]? = some v ∧ s'.mat[i]? = some (r.set outcol (C.num ix))

theorem coded_refl (C : Cell β γ) (outcol : Nat) (s : FS β γ) (lo : Nat) (val : Nat → Option β) : Coded C outcol s s lo lo val :=
  ⟨⟨[], by simp⟩, rfl, fun _ _ => rfl, fun i h1 h2 => by omega⟩

theorem coded_step {C : Cell β γ} {outcol : Nat} {s s1 s2 : FS β γ} {lo hi : Nat} {val val' : Nat → Option β} (h1 : Coded C outcol s s1 lo (lo + 1) val) (h2 : Coded C outcol s1 s2 (lo + 1) hi val') (hlo : lo < hi)
    (hval : ∀ i, lo + 1 ≤ i → val' i = val i) : Coded C outcol s s2 lo hi val := by
  obtain ⟨m1, g1⟩ := h1.grow
  obtain ⟨m2, g2⟩ := h2.grow
  refine ⟨⟨m1 ++ m2, by rw [g2, g1, List.append_assoc]⟩, h2.len.trans h1.len, ?_, ?_⟩
  · intro i hi'
    rw [h2.other i (by omega), h1.other i (by omega)]
  · intro i hi1 hi2
    by_cases hil : i = lo
    · subst hil
      obtain ⟨r, v, ix, e1, e2, e3, e4⟩ := h1.coded i le_rfl (by omega)
      refine ⟨r, v, ix, e1, e2, ?_, ?_⟩
      · rw [g2, List.getElem?_append_left (List.getElem?_eq_some_iff.1 e3).1]; exact e3
      · rw [h2.other i (by omega)]; exact e4
    · obtain ⟨r, v, ix, e1, e2, e3, e4⟩ := h2.coded i (by omega) hi2
      exact ⟨r, v, ix, by rw [← h1.other i (by omega)]; exact e1, by rw [← hval i (by omega)]; exact e2, e3, e4⟩

theorem write_coded (C : Cell β γ) (outcol : Nat) (s : FS β γ) (cats' : List β) (i ix : Nat) (v : β) (val : Nat → Option β) (r : List γ) (hr : s.mat[i]? = some r)
    (hg : ∃ more, cats' = s.cats ++ more) (hv : val i = some v) (hx : cats'[ix]? = some v) :
    Coded C outcol s ⟨cats', s.mat.set i (r.set outcol (C.num ix))⟩ i (i + 1) val := by
  have hi := (List.getElem?_eq_some_iff.1 hr).1
  refine ⟨hg, by simp, ?_, ?_⟩
  · intro j hj
    rw [List.getElem?_set_ne (by omega)]
  · intro j h1 h2
    have : j = i := by omega
    subst this
    exact ⟨r, v, ix, hr, hv, hx, by simp [hi]⟩

/-- **C84 (factors from text).** For any column of text and any list of categories already there (in order or not, complete or not): every row's out column gets the number of a category equal to the row's text, the categories there are kept at their places, and nothing else in the matrix changes. -/
theorem C84_factors_text {cmp : β → β → Int} (hc : CmpOk cmp) (C : Cell β γ) (txt : List β) (incol outcol : Nat) (n : Nat) : ∀ (s : FS β γ) (i : Nat), i + n ≤ txt.length → i + n ≤ s.mat.length → (∀ r ∈ s.mat, outcol < r.length) →
    ∃ s', factorLoop cmp C (some txt) incol outcol s i n = .ok s' ∧ Coded C outcol s s' i (i + n) fun i => txt[i]? := by
  induction n with
  | zero => intro s i _ _ _; exact ⟨s, rfl, coded_refl ..⟩
  | succ n ih =>
    intro s i h1 h2 h3
    have hi : i < s.mat.length := by omega
    have ht : i < txt.length := by omega
    obtain ⟨f, e1, e2⟩ := (C84_bsearch hc txt[i] s.cats).1
    have hrow : outcol < (s.mat[i]).length := h3 _ (List.getElem_mem hi)
    have step : ∃ s1, factorStep cmp C (some txt) incol outcol s i = .ok s1 ∧ Coded C outcol s s1 i (i + 1) fun i => txt[i]? := by
      cases f with
      | some ix =>
        refine ⟨⟨s.cats, s.mat.set i ((s.mat[i]).set outcol (C.num ix))⟩, ?_, ?_⟩
        · simp only [factorStep, rd_of_lt ht, Res.bind, e1, rd_of_lt hi, wr_of_lt hrow]
        · exact write_coded C outcol s s.cats i ix txt[i] _ _ (List.getElem?_eq_getElem hi) ⟨[], by simp⟩ (List.getElem?_eq_getElem ht) (e2 ix rfl)
      | none =>
        refine ⟨⟨s.cats ++ [txt[i]], s.mat.set i ((s.mat[i]).set outcol (C.num s.cats.length))⟩, ?_, ?_⟩
        · simp only [factorStep, rd_of_lt ht, Res.bind, e1, addFactor, Option.isSome_some, if_true, rd_of_lt hi, wr_of_lt hrow]
        · exact write_coded C outcol s _ i _ txt[i] _ _ (List.getElem?_eq_getElem hi) ⟨_, rfl⟩ (List.getElem?_eq_getElem ht) (by simp)
    obtain ⟨s1, f1, f2⟩ := step
    have hrows : ∀ r ∈ s1.mat, outcol < r.length := by
      intro r hr
      obtain ⟨j, hj⟩ := List.getElem?_of_mem hr
      by_cases hji : j = i
      · subst hji
        obtain ⟨r0, v, ix, g1, _, _, g4⟩ := f2.coded j le_rfl (by omega)
        rw [hj] at g4
        rw [Option.some.inj g4, List.length_set]
        exact h3 _ (List.mem_of_getElem? g1)
      · rw [f2.other j (by omega)] at hj
        exact h3 _ (List.mem_of_getElem? hj)
    obtain ⟨s2, g1, g2⟩ := ih s1 (i + 1) (by omega) (by rw [f2.len]; omega) hrows
    refine ⟨s2, by rw [factorLoop, f1]; exact g1, ?_⟩
    have := coded_step f2 g2 (by omega) (fun _ _ => rfl)
    rwa [show i + 1 + n = i + (n + 1) by omega] at this

/-- **C84 (factors from numbers).** For a column of numbers all of whose values are in the categories (as when they are made anew), also if the numbers are written over the column they come from: every row gets the number of its own value's category and nothing else changes. -/
theorem C84_factors_numbers {cmp : β → β → Int} (hc : CmpOk cmp) (C : Cell β γ) (incol outcol : Nat) (cats : List β) (hs : cats.Pairwise fun x y => cmp x y < 0) (n : Nat) : ∀ (m : List (List γ)) (i : Nat), i + n ≤ m.length →
    (∀ r ∈ m, incol < r.length ∧ outcol < r.length) → (∀ j, i ≤ j → ∀ r x, m[j]? = some r → r[incol]? = some x → C.key x ∈ cats) →
    ∃ m', factorLoop cmp C none incol outcol ⟨cats, m⟩ i n = .ok ⟨cats, m'⟩ ∧ Coded C outcol ⟨cats, m⟩ ⟨cats, m'⟩ i (i + n) fun i => ((m[i]?).bind (·[incol]?)).map C.key := by
  induction n with
  | zero => intro m i _ _ _; exact ⟨m, rfl, coded_refl ..⟩
  | succ n ih =>
    intro m i h2 h3 h4
    have hi : i < m.length := by omega
    have hrow := h3 _ (List.getElem_mem hi)
    obtain ⟨ix, hix⟩ := List.getElem?_of_mem (h4 i le_rfl _ _ (List.getElem?_eq_getElem hi) (List.getElem?_eq_getElem hrow.1))
    have hf := ((C84_bsearch hc _ cats).2 hs ix).2 hix
    have step : factorStep cmp C none incol outcol ⟨cats, m⟩ i = .ok ⟨cats, m.set i ((m[i]).set outcol (C.num ix))⟩ := by
      simp only [factorStep, rd_of_lt hi, rd_of_lt hrow.1, Res.bind, hf, wr_of_lt hrow.2]
    have hcod := write_coded C outcol (⟨cats, m⟩ : FS β γ) cats i ix _ (fun i => ((m[i]?).bind (·[incol]?)).map C.key) _ (List.getElem?_eq_getElem hi) ⟨[], by simp⟩ (by simp [hi, hrow.1]) hix
    obtain ⟨m', g1, g2⟩ := ih (m.set i ((m[i]).set outcol (C.num ix))) (i + 1) (by simp; omega)
      (by
        intro r hr
        rcases List.mem_or_eq_of_mem_set hr with hr | rfl
        · exact h3 r hr
        · simpa using hrow)
      (by
        intro j hj r x hr hx
        rw [List.getElem?_set_ne (by omega)] at hr
        exact h4 j (by omega) r x hr hx)
    refine ⟨m', by rw [factorLoop, step]; exact g1, ?_⟩
    have := coded_step hcod g2 (by omega) (by
      intro j hj
      simp only [List.getElem?_set_ne (show i ≠ j by omega)])
    rwa [show i + 1 + n = i + (n + 1) by omega] at this

/-! ## Where it fails -/

/-- **C84 fails with a list of categories already there that lacks a value**: the value is added at the end, where the search by halves does not look, so that the same number is added again and again: two rows of 1 get two categories. -/
theorem C84_old_list_refuted : dummies (cmpDoubles (α := ℤ)) (insertSort cmpDoubles) false true (some [some 2, some 3]) [some 1, some 1] =
    .ok ⟨[some 2, some 3, some 1, some 1], 4, [[some 0, some 0, some 1, some 0], [some 0, some 0, some 0, some 1]]⟩ := by decide +kernel

/-- And with the first category dropped, as is the default, a cell is left that nothing has written (the second row is of category 3, and should be 1, 0). -/
theorem C84_unwritten_refuted : dummies (cmpDoubles (α := ℤ)) (insertSort cmpDoubles) false false (some [some 2, some 3]) [some 4, some 3] =
    .ok ⟨[some 2, some 3, some 4], 3, [[some 0, some 1, some 0], [some 1, none, some 0]]⟩ := by decide +kernel

/-- Making factors of numbers by such a list changes the shape of the data: a matrix of five columns is cut to three, one of which is set to zero. -/
theorem C84_data_lost_refuted : factorLoop (cmpDoubles (α := ℤ)) ⟨id, fun n => some (n : ℤ), some 0, none⟩ none 0 0 ⟨[some 2, some 3], [[some 4, some 10, some 20, some 30, some 40]]⟩ 0 1 =
    .ok ⟨[some 2, some 3, some 4], [[some 2, some 10, some 0]]⟩ := by decide +kernel

/-- `apop_data_to_dummies`, apop_regression.m4.c:328-332: is the request refused for the vector? -/
def vectorRefused (col : Int) (hasVector : Bool) : Bool := decide (col = -1) && hasVector

/-- **Beside C84.** Dummies from the vector are refused exactly when there is a vector. -/
theorem C84_vector_refuted (b : Bool) : vectorRefused (-1) b = b := by simp [vectorRefused]

/-- `apop_data_to_factors` of a number column into a vector that is not there, apop_regression.m4.c:442-443: the vector made has as many elements as the matrix has *columns*; each row's number is then set (out of range is an error). -/
def factorsToNewVector (num : Nat → γ) (junk : γ) (cols : Nat) (codes : List Nat) : Res (List γ) :=
  (codes.zipIdx).foldl (fun acc p => acc.bind fun v => wr v p.2 (num p.1)) (.ok (List.replicate cols junk))

theorem factors_fill (num : Nat → γ) : ∀ (codes : List Nat) (done rest : List γ),
    (codes.zipIdx done.length).foldl (fun (acc : Res (List γ)) (p : ℕ × ℕ) => acc.bind fun v => wr v p.2 (num p.1)) (Res.ok (done ++ rest)) =
      if codes.length ≤ rest.length then .ok (done ++ codes.map num ++ rest.drop codes.length) else .ub := by
  have stuck : ∀ l : List (Nat × Nat), l.foldl (fun (acc : Res (List γ)) (p : ℕ × ℕ) => acc.bind fun v => wr v p.2 (num p.1)) (.ub : Res (List γ)) = .ub := by
    intro l; induction l with
    | nil => rfl
    | cons a l ih => simpa [Res.bind] using ih
  intro codes
  induction codes with
  | nil => intro done rest; simp
  | cons c codes ih =>
    intro done rest
    rw [List.zipIdx_cons, List.foldl_cons]
    cases rest with
    | nil =>
      have : (Res.ok (done ++ [])).bind (fun v => wr v done.length (num c)) = .ub := by simp [Res.bind, wr]
      rw [this, stuck]; simp
    | cons x rest =>
      have : (Res.ok (done ++ x :: rest)).bind (fun v => wr v done.length (num c)) = .ok ((done ++ [num c]) ++ rest) := by
        simp [Res.bind, wr]
      have e := ih (done ++ [num c]) rest
      simp only [List.length_append, List.length_singleton] at e
      rw [this, e]
      simp

/-- **Beside C84 (numeric factors into a new vector).** If the matrix has at least as many columns as there are rows, each row's element is its own category's number (the elements left over are as allocated); if it has fewer, the writes go past the end. -/
theorem C84_new_vector (num : Nat → γ) (junk : γ) (cols : Nat) (codes : List Nat) :
    factorsToNewVector num junk cols codes = if codes.length ≤ cols then .ok (codes.map num ++ List.replicate (cols - codes.length) junk) else .ub := by
  have := factors_fill num codes [] (List.replicate cols junk)
  simpa [factorsToNewVector] using this

/-- **Beside C84.** Two rows and one column: past the end of the vector. -/
theorem C84_new_vector_refuted : factorsToNewVector (fun n => (n : ℤ)) 7 1 [0, 1] = .ub ∧ factorsToNewVector (fun n => (n : ℤ)) 7 3 [0, 1] = .ok [0, 1, 7] := by decide +kernel

example : dummies (cmpDoubles (α := ℤ)) (insertSort cmpDoubles) false false none [some 5, none, some 3, some 5] =
    .ok ⟨[some 3, some 5, none], 2, [[some 1, some 0], [some 0, some 1], [some 0, some 0], [some 1, some 0]]⟩ := by decide +kernel

example : factorLoop strcmp ⟨fun _ => [], fun n => (n : ℤ), 0, 9⟩ (some [[98], [97], [98]]) 0 1 ⟨[[97], [98]], [[1, 2], [3, 4], [5, 6]]⟩ 0 3 = .ok ⟨[[97], [98]], [[1, 1], [3, 0], [5, 1]]⟩ := by decide +kernel

end Apop.Factors
