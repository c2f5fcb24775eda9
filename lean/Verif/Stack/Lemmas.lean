import Verif.Stack.Model
import Verif.Data.CopyLemmas

namespace Apop.Stack
variable {α : Type}

theorem putRows_eq (m : Mat α) (i : Nat) (rs : List (List α)) (hl : i + rs.length ≤ m.rows.length)
    (hc : ∀ r ∈ rs, r.length = m.cols) :
    putRows m i rs = .ok { m with rows := m.rows.take i ++ rs ++ m.rows.drop (i + rs.length) } := by
  induction rs generalizing m i with
  | nil => simp [putRows]
  | cons r rs ih =>
    simp only [List.length_cons] at hl
    have h : i < m.rows.length := by omega
    have hr := hc r (by simp)
    simp only [putRows, setRow, h, hr, and_self, if_true, Res.bind_ok]
    rw [ih ⟨m.rows.set i r, m.cols⟩ (i + 1) (by simp; omega) (fun x hx => hc x (by simp [hx]))]
    congr 2
    rw [List.take_add_one, List.take_set_of_le (Nat.le_refl i)]
    simp only [List.getElem?_set_self h, Option.toList_some, List.append_assoc]
    rw [List.drop_set_of_lt (by omega)]
    simp only [List.cons_append, List.nil_append, List.length_cons]
    rw [show i + 1 + rs.length = i + (rs.length + 1) by omega]

/-- One column copied. -/
def putCell (off k : Nat) (o r : List α) : List α := (r[k]?).elim o (fun x => o.set (off + k) x)

theorem getSetCol (off k : Nat) (O R : List (List α)) (hl : O.length = R.length)
    (hR : ∀ r ∈ R, k < r.length) (hO : ∀ o ∈ O, off + k < o.length) :
    (getColRows k R >>= fun c => setColRows (off + k) O c) =
      .ok (List.zipWith (putCell off k) O R) := by
  induction R generalizing O with
  | nil =>
    have : O = [] := List.eq_nil_of_length_eq_zero (by simpa using hl)
    subst this
    rfl
  | cons r R ih =>
    cases O with
    | nil => simp at hl
    | cons o O =>
      have h1 := hR r (by simp)
      have h2 := hO o (by simp)
      have := ih O (by simpa using hl) (fun x hx => hR x (by simp [hx])) (fun x hx => hO x (by simp [hx]))
      simp only [getColRows, rd_of_lt h1, Res.bind_ok]
      cases hg : getColRows k R with
      | ub => rw [hg] at this; simp at this
      | ok c =>
        rw [hg] at this
        simp only [Res.bind_ok] at this ⊢
        simp only [setColRows, wr_of_lt h2, Res.bind_ok, this, List.zipWith_cons_cons, putCell,
          List.getElem?_eq_getElem h1, Option.elim]

/-- Target row with the cells from `off + k` on replaced by those of `r` from `k` on. -/
def rowInto (off k : Nat) (o r : List α) : List α :=
  o.take (off + k) ++ r.drop k ++ o.drop (off + r.length)

theorem rowInto_step (off k : Nat) (o r : List α) (hk : k < r.length) (ho : off + r.length ≤ o.length) :
    rowInto off (k + 1) (putCell off k o r) r = rowInto off k o r := by
  have h2 : off + k < o.length := by omega
  simp only [rowInto, putCell, List.getElem?_eq_getElem hk, Option.elim]
  rw [show off + (k + 1) = off + k + 1 by omega, List.take_add_one, List.take_set_of_le (Nat.le_refl _),
    List.getElem?_set_self h2, List.drop_set_of_lt (by omega), List.drop_eq_getElem_cons hk]
  simp

theorem putCols_eq (src : Mat α) (hs : src.WF) (off n : Nat) : ∀ (k : Nat) (m : Mat α),
    k + n = src.cols → m.rows.length = src.rows.length →
    (∀ o ∈ m.rows, off + src.cols ≤ o.length) →
    putCols m off src n k = .ok { m with rows := List.zipWith (rowInto off k) m.rows src.rows } := by
  induction n with
  | zero =>
    intro k m hk hl hO
    simp only [putCols]
    congr 1
    have : List.zipWith (rowInto off k) m.rows src.rows = m.rows := by
      apply List.ext_getElem (by simp [hl])
      intro i h1 h2
      have hr := hs _ (List.getElem_mem (l := src.rows) (n := i) (by omega))
      have hk' : src.cols = k := by omega
      simp only [List.getElem_zipWith, rowInto]
      rw [hr, hk', List.drop_eq_nil_of_le (as := src.rows[i]) (by omega)]
      simp
    rw [this]
  | succ n ih =>
    intro k m hk hl hO
    have step := getSetCol off k m.rows src.rows hl
      (by intro r hr; rw [hs r hr]; omega) (by intro o ho; have := hO o ho; omega)
    simp only [putCols]
    cases hg : getColRows k src.rows with
    | ub => rw [hg] at step; simp at step
    | ok c =>
      rw [hg] at step
      simp only [Res.bind_ok] at step ⊢
      rw [step]
      simp only [Res.bind_ok]
      rw [ih (k + 1) _ (by omega) (by simp [hl])]
      · congr 2
        apply List.ext_getElem (by simp)
        intro i h1 h2
        simp only [List.length_zipWith] at h1 h2
        simp only [List.getElem_zipWith]
        have hr := hs _ (List.getElem_mem (l := src.rows) (n := i) (by omega))
        exact rowInto_step off k _ _ (by omega) (by
          have := hO _ (List.getElem_mem (l := m.rows) (n := i) (by omega)); omega)
      · intro o ho
        obtain ⟨i, hi, rfl⟩ := List.mem_iff_getElem.1 ho
        simp only [List.length_zipWith] at hi
        simp only [List.getElem_zipWith, putCell]
        have hr := hs _ (List.getElem_mem (l := src.rows) (n := i) (by omega))
        have := hO _ (List.getElem_mem (l := m.rows) (n := i) (by omega))
        rw [List.getElem?_eq_getElem (by omega)]
        simpa using this

theorem zipWith_self_left {β γ : Type} (f : β → γ → γ) (a : List β) (b : List γ)
    (hl : a.length = b.length) (h : ∀ (i : Nat) x y, a[i]? = some x → b[i]? = some y → f x y = y) :
    List.zipWith f a b = b := by
  apply List.ext_getElem (by simp [hl])
  intro i h1 h2
  simp only [List.getElem_zipWith]
  exact h i _ _ (List.getElem?_eq_getElem (by omega)) (List.getElem?_eq_getElem h2)

theorem matStack_rows (junk : α) (m1 m2 : Mat α) (h1 : m1.WF) (h2 : m2.WF) (hc : m1.cols = m2.cols)
    (inplace : Bool) :
    matStack junk (some m1) (some m2) 'r' inplace = .ok (some ⟨m1.rows ++ m2.rows, m1.cols⟩) := by
  have hm : m1.rows.map (fun r => r.take m1.cols ++ List.replicate (m1.cols - r.length) junk) = m1.rows := by
    conv => rhs; rw [← List.map_id m1.rows]
    apply List.map_congr_left
    intro r hr
    have := h1 r hr
    simp [this, List.take_of_length_le (Nat.le_of_eq this)]
  have key : (if inplace then .ok (reallocMat junk m1 (m1.size1 + m2.size1) m1.cols)
          else putRows (Mat.fresh junk (m1.size1 + m2.size1) m1.cols) 0 m1.rows : Res (Mat α)) =
      .ok ⟨m1.rows ++ List.replicate m2.size1 (List.replicate m1.cols junk), m1.cols⟩ := by
    cases inplace with
    | true =>
      simp only [if_true, reallocMat, Mat.size1]
      rw [List.take_of_length_le (by omega), hm]
      congr 3; congr 1; omega
    | false =>
      simp only [Bool.false_eq_true, if_false]
      rw [putRows_eq _ _ _ (by simp [Mat.fresh, Mat.size1]) (by intro r hr; exact h1 r hr)]
      simp [Mat.fresh, Mat.size1]
  simp only [matStack, if_true, hc, ne_eq, not_true_eq_false, if_false]
  rw [hc] at key
  rw [key]
  simp only [Res.bind_ok]
  rw [putRows_eq _ _ _ (by simp [Mat.size1]) (by intro r hr; exact h2 r hr)]
  simp [Mat.size1]

theorem matStack_cols (junk : α) (m1 m2 : Mat α) (h1 : m1.WF) (h2 : m2.WF) (hc : m1.size1 = m2.size1)
    (inplace : Bool) :
    matStack junk (some m1) (some m2) 'c' inplace =
      .ok (some ⟨List.zipWith (· ++ ·) m1.rows m2.rows, m1.cols + m2.cols⟩) := by
  have hc' : m1.rows.length = m2.rows.length := hc
  have key : (if inplace then .ok (reallocMat junk m1 m1.size1 (m1.cols + m2.cols))
          else putCols (Mat.fresh junk m1.size1 (m1.cols + m2.cols)) 0 m1 m1.cols 0 : Res (Mat α)) =
      .ok ⟨m1.rows.map (· ++ List.replicate m2.cols junk), m1.cols + m2.cols⟩ := by
    cases inplace with
    | true =>
      simp only [if_true, reallocMat, Mat.size1]
      simp only [List.take_length, Nat.sub_self, List.replicate_zero, List.append_nil]
      congr 2
      apply List.map_congr_left
      intro r hr
      have := h1 r hr
      rw [List.take_of_length_le (by omega)]
      congr 2; omega
    | false =>
      simp only [Bool.false_eq_true, if_false]
      rw [putCols_eq m1 h1 0 m1.cols 0 _ (by omega) (by simp [Mat.fresh, Mat.size1])
        (by intro o ho; simp [Mat.fresh] at ho; simp [ho.2])]
      congr 2
      apply List.ext_getElem (by simp [Mat.fresh, Mat.size1])
      intro i g1 g2
      have := h1 _ (List.getElem_mem (l := m1.rows) (n := i) (by simpa using g2))
      simp [Mat.fresh, rowInto, this]
  have hne : ¬ ('c' : Char) = 'r' := by decide
  simp only [matStack, hne, if_false, hc, ne_eq, not_true_eq_false]
  rw [hc] at key
  rw [key]
  simp only [Res.bind_ok]
  rw [putCols_eq m2 h2 m1.cols m2.cols 0 _ (by omega) (by simp [hc'])
    (by intro o ho
        simp only [List.mem_map] at ho
        obtain ⟨r, hr, rfl⟩ := ho
        simp [h1 r hr])]
  simp only [Res.bind_ok]
  congr 3
  apply List.ext_getElem (by simp)
  intro i g1 g2
  simp only [List.length_zipWith, List.length_map] at g1 g2
  have e1 := h1 _ (List.getElem_mem (l := m1.rows) (n := i) (by omega))
  have e2 := h2 _ (List.getElem_mem (l := m2.rows) (n := i) (by omega))
  simp only [List.getElem_zipWith, List.getElem_map, rowInto]
  rw [List.take_append_of_le_length (by omega), List.take_of_length_le (by omega),
    List.drop_eq_nil_of_le (as := m1.rows[i] ++ _) (by simp [e1, e2])]
  simp

theorem vecStack_eq (junk : α) (v1 v2 : List α) :
    vecStack junk (some v1) (some v2) = some (v1 ++ v2) := by simp [vecStack]

/-! ### text -/

theorem growText_rows (g : List (List CStr)) (n c : Nat) (h : ∀ r ∈ g, r.length = c) :
    growText g (g.length + n) c = g ++ List.replicate n (List.replicate c []) := by
  unfold growText
  rw [List.take_of_length_le (by omega), show g.length + n - g.length = n by omega]
  congr 1
  conv => rhs; rw [← List.map_id g]
  apply List.map_congr_left
  intro r hr
  have := h r hr
  simp [this, List.take_of_length_le (Nat.le_of_eq this)]

theorem copyText_tail (g src : List (List CStr)) (c : Nat) (h : ∀ r ∈ src, r.length = c) :
    Page.copyText (g ++ List.replicate src.length (List.replicate c [])) g.length src =
      .ok (g ++ src) := by
  rw [Page.copyText_eq _ _ _ (by simp)]
  · simp only [List.take_left', List.drop_left']
    rw [Page.zipWith_overlay_self _ _ (by simp)]
    · simp
    · intro k r x hr hx
      have := h r (List.mem_of_getElem? hr)
      have hx := List.mem_of_getElem? hx
      simp at hx
      rw [this, hx.2]; simp
  · intro k r x hr hx
    rw [List.getElem?_append_right (by omega)] at hx
    have hx := List.mem_of_getElem? hx
    simp at hx
    rw [h r (List.mem_of_getElem? hr), hx.2]; simp

theorem putTextCols_eq (src : List (List CStr)) (base c : Nat) (hs : ∀ r ∈ src, r.length = c) :
    ∀ (i : Nat) (g : List (List CStr)), i + src.length = g.length →
    (∀ r ∈ g, r.length = base + c) →
    putTextCols g base i src =
      .ok (g.take i ++ List.zipWith (fun o r => o.take base ++ r) (g.drop i) src) := by
  induction src with
  | nil =>
    intro i g hl hg
    simp only [List.length_nil, Nat.add_zero] at hl
    simp [putTextCols, hl]
  | cons r rs ih =>
    intro i g hl hg
    simp only [List.length_cons] at hl
    have hi : i < g.length := by omega
    have hr := hs r (by simp)
    have hgi := hg _ (List.getElem_mem hi)
    simp only [putTextCols]
    rw [Page.copyTextRow_eq g i g[i] r base (by simp [hi]) (by omega)]
    simp only [Res.bind_ok]
    rw [ih (fun x hx => hs x (by simp [hx])) (i + 1) _ (by simp; omega)]
    · rw [List.take_add_one, List.take_set_of_le (Nat.le_refl i)]
      simp only [List.getElem?_set_self hi, Option.toList_some, List.append_assoc]
      rw [List.drop_set_of_lt (by omega)]
      rw [List.drop_eq_nil_of_le (as := g[i]) (by omega)]
      simp only [List.append_nil, List.append_cancel_left_eq, List.cons_append, List.nil_append]
      rw [List.drop_eq_getElem_cons hi, List.zipWith_cons_cons]
    · intro x hx
      rcases List.mem_or_eq_of_mem_set hx with h | h
      · exact hg x h
      · subst h
        simp [hr, hgi]

end Apop.Stack
