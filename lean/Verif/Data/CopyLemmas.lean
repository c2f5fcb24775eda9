import Verif.Data.Model
import Verif.Name.Lemmas

namespace Apop.Page
variable {α : Type}

/-- Overwrite the beginning of a list. -/
def overlay {β : Type} (new old : List β) : List β := new ++ old.drop new.length

theorem copyTextRow_eq (grid : List (List CStr)) (i : Nat) (row ss : List CStr) (j : Nat)
    (hi : grid[i]? = some row) (hj : j + ss.length ≤ row.length) :
    copyTextRow grid i j ss = .ok (grid.set i (row.take j ++ ss ++ row.drop (j + ss.length))) := by
  induction ss generalizing grid row j with
  | nil =>
    have : grid.set i row = grid := by
      obtain ⟨h, rfl⟩ := List.getElem?_eq_some_iff.1 hi
      simp
    simp [copyTextRow, this]
  | cons s ss ih =>
    obtain ⟨h, hr⟩ := List.getElem?_eq_some_iff.1 hi
    simp only [List.length_cons] at hj
    have hjl : j < row.length := by omega
    have e1 : wrText grid i j s = .ok (grid.set i (row.set j s)) := by
      simp only [wrText, rd_of_lt h, Res.bind_ok, hr, wr_of_lt hjl, wr_of_lt h]
    simp only [copyTextRow, e1, Res.bind_ok]
    rw [ih (grid.set i (row.set j s)) (row.set j s) (j + 1) (by simp [h]) (by simp; omega)]
    simp only [List.set_set]
    congr 2
    rw [List.take_add_one, List.take_set_of_le (Nat.le_refl j)]
    simp only [List.getElem?_set_self hjl, Option.toList_some, List.append_assoc,
      List.cons_append, List.length_cons]
    rw [List.drop_set_of_lt (by omega), show j + 1 + ss.length = j + (ss.length + 1) by omega]
    simp

theorem copyText_eq (grid : List (List CStr)) (src : List (List CStr)) (i : Nat)
    (hl : i + src.length ≤ grid.length)
    (hr : ∀ (k : Nat) r g, src[k]? = some r → grid[i + k]? = some g → r.length ≤ g.length) :
    copyText grid i src = .ok (grid.take i ++ List.zipWith overlay src (grid.drop i) ++
      grid.drop (i + src.length)) := by
  induction src generalizing grid i with
  | nil => simp [copyText]
  | cons r rs ih =>
    simp only [List.length_cons] at hl
    have h : i < grid.length := by omega
    have h0 := hr 0 r grid[i] (by simp) (by simp [h])
    simp only [copyText]
    rw [copyTextRow_eq grid i grid[i] r 0 (by simp [h]) (by omega)]
    simp only [Res.bind_ok, List.take_zero, List.nil_append, Nat.zero_add]
    rw [ih _ _ (by simp; omega)]
    · congr 1
      rw [List.take_add_one, List.take_set_of_le (Nat.le_refl i)]
      simp only [List.getElem?_set_self h, Option.toList_some]
      rw [List.drop_set_of_lt (by omega), List.drop_set_of_lt (by omega),
        List.drop_eq_getElem_cons h]
      simp only [List.zipWith_cons_cons, overlay, List.append_assoc, List.cons_append,
        List.nil_append, List.length_cons, List.append_cancel_left_eq]
      rw [show i + 1 + rs.length = i + (rs.length + 1) by omega]
    · intro k r' g hk hg
      refine hr (k + 1) r' g (by simpa using hk) ?_
      rw [List.getElem?_set_ne (by omega)] at hg
      rw [← hg]; congr 1; omega

theorem zipWith_overlay_self (src grid : List (List CStr)) (hl : grid.length = src.length)
    (hr : ∀ (k : Nat) r g, src[k]? = some r → grid[k]? = some g → r.length = g.length) :
    List.zipWith overlay src grid = src := by
  apply List.ext_getElem (by simp; omega)
  intro i h1 h2
  simp only [List.getElem_zipWith, overlay]
  have : src[i].length = (grid[i]'(by omega)).length :=
    hr i _ _ (List.getElem?_eq_getElem h2) (List.getElem?_eq_getElem (by omega))
  rw [this]; simp

/-- Copying a grid onto one of the same shape gives the source. -/
theorem copyText_same (grid src : List (List CStr)) (c : Nat) (hl : grid.length = src.length)
    (h1 : ∀ r ∈ src, r.length = c) (h2 : ∀ r ∈ grid, r.length = c) :
    copyText grid 0 src = .ok src := by
  rw [copyText_eq grid src 0 (by omega)]
  · simp only [List.take_zero, List.nil_append, List.drop_zero, Nat.zero_add]
    rw [zipWith_overlay_self src grid hl]
    · simp [hl.symm]
    · intro k r g hk hg
      rw [h1 r (List.mem_of_getElem? hk), h2 g (List.mem_of_getElem? hg)]
  · intro k r g hk hg
    rw [h1 r (List.mem_of_getElem? hk), h2 g (List.mem_of_getElem? (by simpa using hg))]
    exact Nat.le_refl _

/-! ### names -/

theorem copyList_add (type : Char) (get : Names → List CStr) (put : Names → List CStr → Names)
    (hadd : ∀ n s, (get (n.add (some s) type).1).length = (get n).length + 1)
    (out : Names) (i : Nat) (ss : List CStr) (hi : i = (get out).length) :
    copyList type get put out i ss = out.addAll ss type := by
  induction ss generalizing out i with
  | nil => simp [copyList, Names.addAll]
  | cons s ss ih =>
    subst hi
    simp only [copyList, Nat.lt_irrefl, if_false]
    rw [ih _ _ (by rw [hadd])]
    simp [Names.addAll]

theorem copyList_put (type : Char) (get : Names → List CStr) (put : Names → List CStr → Names)
    (hgp : ∀ n l, get (put n l) = l) (hpp : ∀ n l l', put (put n l) l' = put n l')
    (hpg : ∀ n, put n (get n) = n)
    (out : Names) (i : Nat) (ss : List CStr) (hi : i + ss.length ≤ (get out).length) :
    copyList type get put out i ss =
      put out ((get out).take i ++ ss ++ (get out).drop (i + ss.length)) := by
  induction ss generalizing out i with
  | nil => simp [copyList, hpg]
  | cons s ss ih =>
    simp only [List.length_cons] at hi
    have h : i < (get out).length := by omega
    simp only [copyList, if_pos h]
    rw [ih _ _ (by rw [hgp]; simp; omega), hpp, hgp]
    congr 1
    rw [List.take_add_one, List.take_set_of_le (Nat.le_refl i)]
    simp only [List.getElem?_set_self h, Option.toList_some, List.append_assoc]
    rw [List.drop_set_of_lt (by omega), show i + 1 + ss.length = i + (ss.length + 1) by omega]
    simp

/-- What `apop_data_copy` makes of a name structure: all three lists with hashes in step, the title
printed, *no vector name*. -/
def copyNames (n : Names) : Names :=
  { (((({ title := some (Names.printS n.title) } : Names).addAll n.row 'r').addAll n.col 'c').addAll
      n.text 't') with title := some (Names.printS n.title), vector := none }

theorem copyNames_lists (n : Names) : (copyNames n).row = n.row ∧ (copyNames n).col = n.col ∧
    (copyNames n).text = n.text ∧ (copyNames n).vector = none ∧
    (copyNames n).title = some (Names.printS n.title) ∧ Names.Good (copyNames n) := by
  let b : Names := { title := some (Names.printS n.title) }
  obtain ⟨c1, c2, c3, c4, c5⟩ := Names.addAll_of_row (n := b) (src := n.row)
  obtain ⟨b1, b2, b3, b4, b5⟩ := Names.addAll_of_col (n := b.addAll n.row 'r')
      (src := n.col) (t := 'c') (by decide) (by decide) (by decide) (by decide)
  obtain ⟨a1, a2, a3, a4, a5⟩ := Names.addAll_of_text (n := (b.addAll n.row 'r').addAll n.col 'c')
      (src := n.text)
  refine ⟨?_, ?_, ?_, rfl, rfl, ?_⟩
  · show (((b.addAll n.row 'r').addAll n.col 'c').addAll n.text 't').row = _
    rw [a3, b2, c1]; rfl
  · show (((b.addAll n.row 'r').addAll n.col 'c').addAll n.text 't').col = _
    rw [a2, b1, c2]; rfl
  · show (((b.addAll n.row 'r').addAll n.col 'c').addAll n.text 't').text = _
    rw [a1, b3, c3]; rfl
  · have : Names.Good (((b.addAll n.row 'r').addAll n.col 'c').addAll n.text 't') := by
      apply Names.good_addAll; apply Names.good_addAll; apply Names.good_addAll
      simp [Names.Good, Names.InStep, b]
    exact this

theorem memcpyNames_fresh (n : Names) : memcpyNames Names.alloc n = copyNames n := by
  unfold memcpyNames
  simp only [Names.alloc]
  let b : Names := { title := some (Names.printS n.title) }
  obtain ⟨c1, c2, c3, c4, c5⟩ := Names.addAll_of_row (n := b) (src := n.row)
  obtain ⟨b1, b2, b3, b4, b5⟩ := Names.addAll_of_col (n := b.addAll n.row 'r')
      (src := n.col) (t := 'c') (by decide) (by decide) (by decide) (by decide)
  obtain ⟨a1, a2, a3, a4, a5⟩ := Names.addAll_of_text (n := (b.addAll n.row 'r').addAll n.col 'c')
      (src := n.text)
  rw [copyList_add 'r' Names.row _ (by simp [Names.add]) _ 0 _ rfl,
    copyList_add 'c' Names.col _ (by simp [Names.add]) _ 0 _ (by
      show 0 = (b.addAll n.row 'r').col.length; rw [c2]; rfl),
    copyList_add 't' Names.text _ (by simp [Names.add]) _ 0 _ (by
      show 0 = ((b.addAll n.row 'r').addAll n.col 'c').text.length; rw [b3, c3]; rfl)]
  have h1 : (((b.addAll n.row 'r').addAll n.col 'c').addAll n.text 't').title =
    some (Names.printS n.title) := by rw [a5, b5, c5]
  have h2 : (((b.addAll n.row 'r').addAll n.col 'c').addAll n.text 't').vector = none := by
    rw [a4, b4, c4]
  show ((b.addAll n.row 'r').addAll n.col 'c').addAll n.text 't' = _
  have e : ∀ (m : Names) x, m.title = x → m.vector = none →
      m = { m with title := x, vector := none } := by
    intro m x hx hy; subst hx; rw [← hy]
  exact e _ _ h1 h2

/-- Copying the same names a second time changes nothing. -/
theorem memcpyNames_again (n : Names) : memcpyNames (copyNames n) n = copyNames n := by
  obtain ⟨h1, h2, h3, h4, h5, -⟩ := copyNames_lists n
  have e : ∀ m : Names, m.row = n.row → m.col = n.col → m.text = n.text → m.vector = none →
      m.title = some (Names.printS n.title) → memcpyNames m n = m := by
    intro m r1 r2 r3 r4 r5
    unfold memcpyNames
    obtain ⟨mt, mv, mc, mr, mx, a, b, c⟩ := m
    simp only at r1 r2 r3 r4 r5
    subst r1 r2 r3 r4 r5
    simp only
    rw [copyList_put 'r' Names.row _ (by simp) (by simp) (by simp) _ 0 _ (by simp)]
    simp only [List.take_zero, List.nil_append, Nat.zero_add, List.drop_length, List.append_nil]
    rw [copyList_put 'c' Names.col _ (by simp) (by simp) (by simp) _ 0 _ (by simp)]
    simp only [List.take_zero, List.nil_append, Nat.zero_add, List.drop_length, List.append_nil]
    rw [copyList_put 't' Names.text _ (by simp) (by simp) (by simp) _ 0 _ (by simp)]
    simp only [List.take_zero, List.nil_append, Nat.zero_add, List.drop_length, List.append_nil]
  exact e _ h1 h2 h3 h4 h5

/-! ### pages -/

/-- What `apop_data_copy` makes of one error-free page. -/
def copyOf (p : Page α) : Page α :=
  { vector := p.vector, matrix := p.matrix, weights := p.weights, textsize := p.textsize
    text := p.text
    names := some (match p.names with | some n => copyNames n | none => Names.alloc) }

theorem memcpyPage_shell (junk : α) (p : Page α) (hwf : p.WF) (he : p.error = none) :
    memcpyPage (copyShell junk p) p = .ok (copyOf p, true) := by
  obtain ⟨hm, ⟨ht1, ht2⟩, hz⟩ := hwf
  obtain ⟨v, m, n, tx, ⟨t0, t1⟩, w, e⟩ := p
  simp only at hm ht1 ht2 hz he
  subst he
  have p1 : partError m (m.map fun m => Mat.fresh junk m.size1 m.cols)
      (fun a b => a.size1 == b.size1 && a.cols == b.cols) = none := by
    cases m <;> simp [partError, Mat.fresh, Mat.size1]
  have p2 : ∀ v : Option (List α), partError v (v.map fun v => List.replicate v.length junk)
      (fun a b => a.length == b.length) = none := by
    intro v; cases v <;> simp [partError]
  have hor : ∀ {β : Type} (x : Option β) (f : β → β), x.or (x.map f) = x := by
    intro β x f; cases x <;> rfl
  unfold memcpyPage copyShell
  simp only [p1, p2, hor, empty]
  by_cases h0 : t0 = 0
  · have h1 : t1 = 0 := hz.1 h0
    subst h0; subst h1
    have : tx = [] := by simpa using ht1
    subst this
    simp only [ne_eq, not_true_eq_false, and_self, if_false, copyOf]
    cases n <;> simp [memcpyNames_fresh]
  · have h1 : t1 ≠ 0 := fun h => h0 (hz.2 h)
    simp only [ne_eq, h0, h1, not_false_eq_true, and_self, if_true]
    have hc : copyText (List.replicate t0 (List.replicate t1 [])) 0 tx = .ok tx := by
      apply copyText_same _ _ t1 (by simp [ht1]) ht2
      intro r hr; simp at hr; simp [hr]
    cases n <;> simp [hc, copyOf, memcpyNames_fresh]

theorem memcpyPage_again (p : Page α) (hwf : p.WF) :
    memcpyPage (copyOf p) p = .ok (copyOf p, true) := by
  obtain ⟨hm, ⟨ht1, ht2⟩, hz⟩ := hwf
  obtain ⟨v, m, n, tx, ⟨t0, t1⟩, w, e⟩ := p
  simp only at hm ht1 ht2 hz
  have p1 : partError m m (fun a b : Mat α => a.size1 == b.size1 && a.cols == b.cols) = none := by
    cases m <;> simp [partError]
  have p2 : ∀ v : Option (List α), partError v v (fun a b => a.length == b.length) = none := by
    intro v; cases v <;> simp [partError]
  have hor : ∀ {β : Type} (x : Option β), x.or x = x := by
    intro β x; cases x <;> rfl
  unfold memcpyPage copyOf
  simp only [p1, p2, hor]
  by_cases h0 : t0 = 0
  · have h1 : t1 = 0 := hz.1 h0
    subst h0; subst h1
    have : tx = [] := by simpa using ht1
    subst this
    cases n <;> simp [memcpyNames_again]
  · have h1 : t1 ≠ 0 := fun h => h0 (hz.2 h)
    simp only [ne_eq, h0, h1, not_false_eq_true, and_self, if_true]
    have hc : copyText tx 0 tx = .ok tx := copyText_same _ _ t1 rfl ht2 ht2
    cases n <;> simp [hc, memcpyNames_again]

theorem memcpy_again (ps : List (Page α)) (hwf : ∀ p ∈ ps, p.WF) :
    memcpy (ps.map copyOf) ps = .ok (ps.map copyOf) := by
  induction ps with
  | nil => rfl
  | cons p ps ih =>
    simp only [List.map_cons, memcpy]
    rw [memcpyPage_again p (hwf p (by simp))]
    simp only [Res.bind_ok, if_true]
    cases ps with
    | nil => rfl
    | cons q qs =>
      have := ih (fun p hp => hwf p (by simp [hp]))
      simp only [List.map_cons] at this ⊢
      rw [this]; rfl

theorem copy_eq (junk : α) (ps : List (Page α)) (hwf : ∀ p ∈ ps, p.WF)
    (he : ∀ p ∈ ps, p.error = none) : copy junk ps = .ok (ps.map copyOf) := by
  induction ps with
  | nil => rfl
  | cons p ps ih =>
    have hp := he p (by simp)
    have hw := hwf p (by simp)
    cases ps with
    | nil =>
      simp only [copy, hp, Option.isSome_none, Bool.false_eq_true, false_and, if_false, memcpy,
        memcpyPage_shell junk p hw hp, Res.bind_ok, if_true]
      rfl
    | cons q qs =>
      have := ih (fun p hp => hwf p (by simp [hp])) (fun p hp => he p (by simp [hp]))
      simp only [copy, this, Res.bind_ok, List.map_cons]
      have hq : (copyOf q).error = none := rfl
      simp only [hq, hp, Option.isSome_none, Bool.false_eq_true, false_and, if_false]
      simp only [memcpy, memcpyPage_shell junk p hw hp, Res.bind_ok, if_true]
      have h2 := memcpy_again (q :: qs) (fun p hp => hwf p (by simp [hp]))
      simp only [memcpy, List.map_cons] at h2
      rw [h2]; rfl

end Apop.Page
