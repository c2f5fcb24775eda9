import Verif.Rows.Props

namespace Apop.Rows
open Apop.Views
variable {α : Type}

/-! ## C15: apop_data_rm_columns, apop_data_prune_columns -/

/-- Specification: the data set with only the columns whose index satisfies `keep`, in order, with
their names; a matrix that loses all its columns becomes NULL. All else is unchanged. -/
def onlyCols (keep : Nat → Bool) (p : Page α) : Page α :=
  { p with
    matrix := p.matrix.bind (fun m =>
      if m.cols ≠ 0 ∧ kept keep m.cols = 0 then none
      else some ⟨m.rows.map (keepBy keep), kept keep m.cols⟩)
    names := p.names.map (fun n => { n with col := keepBy keep n.col }) }

/-- Column `i` survives the drop array. -/
def undropped (drop : List Bool) (i : Nat) : Bool := !((drop[i]?).getD false)

theorem keepCols_eq (drop : List Bool) (l : List CStr) (i : Nat) (h : i + l.length ≤ drop.length) :
    keepCols drop i l = .ok (keepBy (fun k => undropped drop (i + k)) l) := by
  induction l generalizing i with
  | nil => rfl
  | cons s l ih =>
    simp only [List.length_cons] at h
    simp only [keepCols, rd_of_lt (show i < drop.length by omega), Res.bind_ok, ih (i + 1) (by omega)]
    congr 1
    have e := keepBy_append (fun k => undropped drop (i + k)) [s] l
    rw [List.singleton_append] at e
    rw [e]
    have e2 : (fun k => undropped drop (i + 1 + k)) = (fun k => undropped drop (i + ([s].length + k))) := by
      funext k; congr 1; simp; omega
    rw [e2]
    cases hd : drop[i] <;>
      simp [keepBy, undropped, List.getElem?_eq_getElem (show i < drop.length by omega), hd]

theorem countKept_eq (drop : List Bool) (k i : Nat) (h : i + k ≤ drop.length) :
    countKept drop i k = .ok (kept (fun j => undropped drop (i + j)) k) := by
  induction k generalizing i with
  | zero => rfl
  | succ k ih =>
    simp only [countKept, rd_of_lt (show i < drop.length by omega), Res.bind_ok, ih (i + 1) (by omega)]
    congr 1
    unfold kept
    rw [List.range_succ_eq_map, List.filter_cons, List.filter_map]
    have e : ((fun j => undropped drop (i + j)) ∘ Nat.succ) = (fun j => undropped drop (i + 1 + j)) := by
      funext j; simp only [Function.comp]; congr 1; omega
    rw [e]
    cases hd : drop[i] <;>
      simp [undropped, List.getElem?_eq_getElem (show i < drop.length by omega), hd]

theorem colCopy (i j : Nat) (G : List α → List α) (junk : α) (R : List (List α))
    (h : ∀ r ∈ R, i < r.length ∧ j < (G r).length) :
    (Stack.getColRows i R >>= fun c => Stack.setColRows j (R.map G) c) =
      .ok (R.map (fun r => (G r).set j (r[i]?.getD junk))) := by
  induction R with
  | nil => rfl
  | cons r R ih =>
    obtain ⟨h1, h2⟩ := h r (by simp)
    have := ih (fun x hx => h x (by simp [hx]))
    simp only [Stack.getColRows, rd_of_lt h1, Res.bind_ok]
    cases hg : Stack.getColRows i R with
    | ub => rw [hg] at this; simp at this
    | ok c =>
      rw [hg] at this
      simp only [Res.bind_ok] at this ⊢
      simp only [List.map_cons, Stack.setColRows, wr_of_lt h2, Res.bind_ok, this,
        List.getElem?_eq_getElem h1, Option.getD_some]

theorem kept_mono (keep : Nat → Bool) {a b : Nat} (h : a ≤ b) : kept keep a ≤ kept keep b := by
  induction b with
  | zero => have : a = 0 := by omega
            subst this; exact Nat.le_refl _
  | succ b ih =>
    rw [kept_succ]
    by_cases hb : a = b + 1
    · subst hb; rw [kept_succ]; exact Nat.le_refl _
    · have := ih (by omega); omega

theorem copyKept_eq (junk : α) (drop : List Bool) (m : Mat α) (hm : m.WF) (hd : m.cols ≤ drop.length) :
    ∀ (k i : Nat), i + k = m.cols →
    copyKept drop m i k (kept (undropped drop) i)
      ⟨m.rows.map (fun r => keepBy (undropped drop) (r.take i) ++
        List.replicate (kept (undropped drop) m.cols - kept (undropped drop) i) junk),
       kept (undropped drop) m.cols⟩ =
    .ok ⟨m.rows.map (keepBy (undropped drop)), kept (undropped drop) m.cols⟩ := by
  intro k
  induction k with
  | zero =>
    intro i hi
    simp only [Nat.add_zero] at hi
    simp only [copyKept]
    congr 2
    apply List.map_congr_left
    intro r hr
    have : r.length ≤ i := by rw [hm r hr]; omega
    rw [List.take_of_length_le this, hi]; simp
  | succ k ih =>
    intro i hi
    simp only [copyKept, rd_of_lt (show i < drop.length by omega), Res.bind_ok]
    have hu : undropped drop i = !drop[i] := by
      simp [undropped, List.getElem?_eq_getElem (show i < drop.length by omega)]
    cases hdi : drop[i] with
    | true =>
      have hu' : undropped drop i = false := by rw [hu, hdi]; rfl
      have hk : kept (undropped drop) (i + 1) = kept (undropped drop) i := by rw [kept_succ, hu']; simp
      simp only [if_true]
      have := ih (i + 1) (by omega)
      rw [hk] at this
      rw [← this]
      congr 2
      apply List.map_congr_left
      intro r hr
      rw [keepBy_take_succ _ r i (by rw [hm r hr]; omega), hu']; simp
    | false =>
      have hu' : undropped drop i = true := by rw [hu, hdi]; rfl
      have hk : kept (undropped drop) (i + 1) = kept (undropped drop) i + 1 := by rw [kept_succ, hu']; simp
      have hle : kept (undropped drop) (i + 1) ≤ kept (undropped drop) m.cols := kept_mono _ (by omega)
      simp only [Bool.false_eq_true, if_false]
      have cc := colCopy i (kept (undropped drop) i) (fun r => keepBy (undropped drop) (r.take i) ++
        List.replicate (kept (undropped drop) m.cols - kept (undropped drop) i) junk) junk m.rows (by
          intro r hr
          have := hm r hr
          refine ⟨by omega, ?_⟩
          rw [List.length_append, keepBy_take_length _ _ _ (by omega), List.length_replicate]
          omega)
      cases hg : Stack.getColRows i m.rows with
      | ub => rw [hg] at cc; simp at cc
      | ok c =>
        rw [hg] at cc
        simp only [Res.bind_ok] at cc ⊢
        rw [cc]
        simp only [Res.bind_ok]
        have := ih (i + 1) (by omega)
        rw [hk] at this
        rw [← this]
        congr 2
        apply List.map_congr_left
        intro r hr
        have hrl := hm r hr
        rw [keepBy_take_succ _ r i (by omega), hu', List.getElem?_eq_getElem (by omega),
          List.set_append_right _ _ (by rw [keepBy_take_length _ _ _ (by omega)]; exact Nat.le_refl _),
          keepBy_take_length _ _ _ (by omega), Nat.sub_self,
          show kept (undropped drop) m.cols - kept (undropped drop) i =
            (kept (undropped drop) m.cols - (kept (undropped drop) i + 1)) + 1 by omega,
          List.replicate_succ]
        simp

/-- **C15** (removal): for every matrix and every drop array long enough for both the columns and the
names, exactly the unmarked columns and column names remain, in order. -/
theorem C15_rm_columns (junk : α) (p : Page α) (m : Mat α) (n : Names) (drop : List Bool) (hm : p.matrix = some m)
    (hwf : m.WF) (hn : p.names = some n) (h1 : m.cols ≤ drop.length) (h2 : n.col.length ≤ drop.length) :
    rmColumns junk p drop = .ok (onlyCols (undropped drop) p) := by
  have e0 : (fun j => undropped drop (0 + j)) = undropped drop := by funext j; simp
  have hc := countKept_eq drop m.cols 0 (by omega)
  rw [e0] at hc
  have hk := keepCols_eq drop n.col 0 (by omega)
  rw [e0] at hk
  have hmat : matRmColumns junk m drop = .ok (if m.cols ≠ 0 ∧ kept (undropped drop) m.cols = 0 then none
      else some ⟨m.rows.map (keepBy (undropped drop)), kept (undropped drop) m.cols⟩) := by
    unfold matRmColumns
    rw [hc]
    simp only [Res.bind_ok]
    by_cases ha : kept (undropped drop) m.cols = m.cols
    · rw [if_pos ha, if_neg (by omega)]
      have := kept_eq_self _ _ ha
      congr 2
      rw [ha]
      obtain ⟨rows, cols⟩ := m
      simp only at *
      congr 1
      rw [List.map_congr_left (g := id), List.map_id]
      intro r hr
      exact keepBy_all _ _ (by rw [hwf r hr]; exact this)
    · rw [if_neg ha]
      by_cases hb : kept (undropped drop) m.cols = 0
      · rw [if_pos hb, if_pos ⟨by omega, hb⟩]
      · rw [if_neg hb, if_neg (by omega)]
        have := copyKept_eq junk drop m hwf h1 m.cols 0 (by omega)
        have e : (Mat.fresh junk m.size1 (kept (undropped drop) m.cols)) =
            ⟨m.rows.map (fun r => keepBy (undropped drop) (r.take 0) ++
              List.replicate (kept (undropped drop) m.cols - kept (undropped drop) 0) junk),
              kept (undropped drop) m.cols⟩ := by
          simp [Mat.fresh, Mat.size1, keepBy, kept, List.map_const']
        rw [e]
        have k0 : kept (undropped drop) 0 = 0 := rfl
        rw [k0] at this ⊢
        rw [this]; rfl
  unfold rmColumns
  rw [hm]
  simp only [hmat, Res.bind_ok, hn, nameRmColumns, hk]
  congr 1
  apply pageExt <;> simp [onlyCols, hm, hn]

/-- **C15** (finding): a drop array with fewer entries than the matrix has columns is read out of
bounds. -/
theorem C15_short_drop_ub (junk : α) (p : Page α) (m : Mat α) (drop : List Bool) (hm : p.matrix = some m)
    (h : drop.length < m.cols) : rmColumns junk p drop = .ub := by
  have key : ∀ k i, i ≤ drop.length → drop.length < i + k → countKept drop i k = .ub := by
    intro k
    induction k with
    | zero => intro i h1 h2; omega
    | succ k ih =>
      intro i h1 h2
      simp only [countKept]
      by_cases hi : i < drop.length
      · simp only [rd_of_lt hi, Res.bind_ok, ih (i + 1) (by omega) (by omega), Res.bind_ub]
      · have : rd drop i = .ub := by simp [rd, List.getElem?_eq_none (show drop.length ≤ i by omega)]
        simp [this]
  simp [rmColumns, hm, matRmColumns, key m.cols 0 (by omega) (by omega)]

/-! ### pruning -/

/-- How many strings of the list are equal to `c` up to case. -/
def occ (c : CStr) (l : List CStr) : Nat := (l.filter (caseEq c)).length

/-- Specification of pruning: column `i` is retained iff fewer equally named columns precede it than
there are equal requests; that is, the `k` requests for a name are served by the first `k` columns
with that name. -/
def requested (cols req : List CStr) (i : Nat) : Bool :=
  match cols[i]? with
  | none => false
  | some c => decide (occ c (cols.take i) < occ c req)

/-- Requests equal to `c` that are already used. -/
def usedCt (c : CStr) : List CStr → List Bool → Nat
  | r :: rs, u :: us => (if u && caseEq c r then 1 else 0) + usedCt c rs us
  | _, _ => 0

theorem occ_cons (c r : CStr) (l : List CStr) : occ c (r :: l) = (if caseEq c r then 1 else 0) + occ c l := by
  unfold occ
  by_cases h : caseEq c r = true
  · simp [h]; omega
  · simp [h]

theorem usedCt_le (c : CStr) (req : List CStr) (used : List Bool) : usedCt c req used ≤ occ c req := by
  induction req generalizing used with
  | nil => cases used <;> simp [usedCt]
  | cons r req ih =>
    cases used with
    | nil => simp [usedCt]
    | cons u us =>
      have := ih us
      rw [usedCt, occ_cons]
      cases u <;> cases caseEq c r <;> simp <;> omega

theorem caseEq_congr {c d : CStr} (h : caseEq c d = true) (r : CStr) : caseEq c r = caseEq d r := by
  rw [Bool.eq_iff_iff]
  constructor
  · exact fun h' => caseEq_trans (by rw [caseEq_comm]; exact h) h'
  · exact fun h' => caseEq_trans h h'

theorem occ_congr {c d : CStr} (h : caseEq c d = true) (l : List CStr) : occ c l = occ d l := by
  unfold occ
  congr 2
  funext r
  exact caseEq_congr h r

theorem usedCt_congr {c d : CStr} (h : caseEq c d = true) (req : List CStr) (used : List Bool) :
    usedCt c req used = usedCt d req used := by
  induction req generalizing used with
  | nil => cases used <;> rfl
  | cons r req ih =>
    cases used with
    | nil => rfl
    | cons u us => simp only [usedCt, ih us, caseEq_congr h r]

theorem claim_spec (c : CStr) (req : List CStr) (used : List Bool) (hl : used.length = req.length) :
    (claim c req used).2.length = req.length ∧
    (claim c req used).1 = decide (usedCt c req used < occ c req) ∧
    ∀ d, usedCt d req (claim c req used).2 =
      usedCt d req used + (if (claim c req used).1 && caseEq d c then 1 else 0) := by
  induction req generalizing used with
  | nil =>
    have : used = [] := List.eq_nil_of_length_eq_zero (by simpa using hl)
    subst this
    simp [claim, usedCt, occ]
  | cons r req ih =>
    cases used with
    | nil => simp at hl
    | cons u us =>
      have hl' : us.length = req.length := by simpa using hl
      obtain ⟨a1, a2, a3⟩ := ih us hl'
      by_cases hc : (!u && caseEq c r) = true
      · simp only [claim, hc, if_true]
        rw [Bool.and_eq_true, Bool.not_eq_true'] at hc
        obtain ⟨rfl, hcr⟩ := hc
        refine ⟨by simp [hl'], ?_, ?_⟩
        · have := usedCt_le c req us
          simp only [usedCt, occ_cons, hcr]
          simp; omega
        · intro d
          have : caseEq d r = caseEq d c := by
            rw [caseEq_comm d r, caseEq_comm d c]; exact (caseEq_congr hcr d).symm
          simp only [usedCt, this, Bool.true_and, Bool.false_and]
          cases caseEq d c <;> simp
          omega
      · simp only [claim, hc]
        refine ⟨by simp [a1], ?_, ?_⟩
        · rw [if_neg (by simp)]
          simp only [a2, usedCt, occ_cons]
          cases u <;> cases h : caseEq c r <;> simp_all
        · intro d
          rw [if_neg (by simp)]
          simp only [usedCt, a3 d]
          omega

theorem rmList_spec (req cols : List CStr) (used : List Bool) (hl : used.length = req.length) :
    (rmList req cols used).length = cols.length ∧
    ∀ i c, cols[i]? = some c → (rmList req cols used)[i]? =
      some (!decide (usedCt c req used + occ c (cols.take i) < occ c req)) := by
  induction cols generalizing used with
  | nil => simp [rmList]
  | cons c cols ih =>
    obtain ⟨a1, a2, a3⟩ := claim_spec c req used hl
    obtain ⟨b1, b2⟩ := ih (claim c req used).2 a1
    refine ⟨by simp [rmList, b1], ?_⟩
    intro i d hd
    cases i with
    | zero =>
      simp at hd; subst hd
      simp only [rmList, List.getElem?_cons_zero, a2, List.take_zero, show occ c [] = 0 from rfl, Nat.add_zero]
    | succ i =>
      simp only [List.getElem?_cons_succ] at hd
      simp only [rmList, List.getElem?_cons_succ, b2 i d hd, List.take_succ_cons, occ_cons, a3 d]
      congr 3
      by_cases hdc : caseEq d c = true
      · simp only [hdc, Bool.and_true, if_true, a2]
        by_cases hk : usedCt c req used < occ c req
        · simp only [hk, decide_true, if_true]
          apply propext; omega
        · have e1 := usedCt_congr hdc req used
          have e2 := occ_congr hdc req
          simp only [hk, decide_false]
          apply propext
          simp; omega
      · simp [hdc]

theorem usedCt_zero (c : CStr) (req : List CStr) (k : Nat) : usedCt c req (List.replicate k false) = 0 := by
  induction req generalizing k with
  | nil => cases k <;> rfl
  | cons r req ih =>
    cases k with
    | zero => rfl
    | succ k => simp [List.replicate_succ, usedCt, ih k]

/-- **C15** (pruning): for every matrix whose columns are all named and every list of requests,
exactly the requested columns remain. -/
theorem C15_prune (junk : α) (p : Page α) (m : Mat α) (n : Names) (req : List CStr) (hm : p.matrix = some m)
    (hwf : m.WF) (hn : p.names = some n) (h1 : m.cols = n.col.length) :
    prune junk p req = .ok (onlyCols (requested n.col req) p) := by
  obtain ⟨a, b⟩ := rmList_spec req n.col (List.replicate req.length false) (by simp)
  unfold prune
  simp only [hm, hn]
  rw [C15_rm_columns junk p m n _ hm hwf hn (by omega) (by omega)]
  have hk : ∀ i < m.cols, undropped (rmList req n.col (List.replicate req.length false)) i = requested n.col req i := by
    intro i hi
    have hi' : i < n.col.length := by omega
    unfold undropped requested
    rw [b i _ (List.getElem?_eq_getElem hi'), List.getElem?_eq_getElem hi', usedCt_zero]
    simp
  have hkept : kept (undropped (rmList req n.col (List.replicate req.length false))) m.cols =
      kept (requested n.col req) m.cols := by
    unfold kept
    congr 1
    apply List.filter_congr
    intro i hi
    exact hk i (List.mem_range.1 hi)
  congr 1
  apply pageExt
  · rfl
  · simp only [onlyCols, hm, Option.bind_some, hkept]
    congr 3
    apply List.map_congr_left
    intro r hr
    exact keepBy_congr _ _ _ (by rw [hwf r hr]; exact hk)
  · rfl
  · rfl
  · simp only [onlyCols, hn, Option.map_some]
    congr 2
    exact keepBy_congr _ _ _ (by rw [← h1]; exact hk)
  · rfl
  · rfl

/-- Non-vacuity, with a repeated name, a request in another case and a request that matches nothing. -/
example : (match prune 0 ({ matrix := some ⟨[[1, 2, 3, 4]], 4⟩
                            names := some { col := [str "a", str "b", str "A", str "c"] } } : Page Int)
      [str "C", str "a", str "zz"] with
    | .ok q => some (q.matrix, q.names.map (·.col))
    | .ub => none) = some (some ⟨[[1, 4]], 2⟩, some [str "a", str "c"]) := by decide +kernel

/-- **C15** (finding): `rm_list` has one entry per *name*; with fewer names than columns it is read out
of bounds. -/
theorem C15_prune_unnamed_ub (junk : α) (p : Page α) (m : Mat α) (n : Names) (req : List CStr)
    (hm : p.matrix = some m) (hn : p.names = some n) (h : n.col.length < m.cols) : prune junk p req = .ub := by
  obtain ⟨a, b⟩ := rmList_spec req n.col (List.replicate req.length false) (by simp)
  simp only [prune, hm, hn]
  exact C15_short_drop_ub junk p m _ hm (by omega)

example : ∃ (p : Page Int) (m : Mat Int) (n : Names), p.matrix = some m ∧ p.names = some n ∧ n.col.length < m.cols :=
  ⟨{ matrix := some ⟨[[1, 2]], 2⟩, names := some { col := [str "a"] } }, ⟨[[1, 2]], 2⟩, { col := [str "a"] }, rfl, rfl, by decide⟩

example : ∃ (p : Page Int) (m : Mat Int) (n : Names) (drop : List Bool), p.matrix = some m ∧ m.WF ∧
    p.names = some n ∧ m.cols ≤ drop.length ∧ n.col.length ≤ drop.length ∧
    (onlyCols (undropped drop) p).matrix = some ⟨[[1, 3], [4, 6]], 2⟩ :=
  ⟨{ matrix := some ⟨[[1, 2, 3], [4, 5, 6]], 3⟩, names := some { col := [str "a", str "b"] } },
    ⟨[[1, 2, 3], [4, 5, 6]], 3⟩, { col := [str "a", str "b"] }, [false, true, false], rfl,
    by unfold Mat.WF; decide, rfl, by decide, by decide, by decide⟩

end Apop.Rows
