import Verif.Transpose.Lemmas
import Verif.Name.Props

/-! # C16: transposition -/

namespace Apop.Transpose
variable {α : Type}

/-- Specification: `b` is `a` transposed: dimensions exchanged, cell (j,i) of `b` is cell (i,j) of `a`. -/
def IsTr {β : Type} (a b : List (List β)) (ra ca : Nat) : Prop :=
  a.length = ra ∧ (∀ r ∈ a, r.length = ca) ∧ b.length = ca ∧ (∀ r ∈ b, r.length = ra) ∧
  ∀ i j, cell? b j i = cell? a i j

/-- Specification for matrices. -/
def MatTr (a b : Option (Mat α)) : Prop :=
  match a, b with
  | none, none => True
  | some a, some b => IsTr a.rows b.rows a.size1 a.cols ∧ b.cols = a.size1 ∧ b.size1 = a.cols
  | _, _ => False

theorem matTr_spec (m : Mat α) (h : m.WF) : MatTr (some m) (some (matTr m)) := by
  obtain ⟨a, b, c⟩ := trList_spec m.cols m.rows h
  exact ⟨⟨rfl, h, a, b, c⟩, rfl, a⟩

theorem matTr_matTr (m : Mat α) (h : m.WF) : matTr (matTr m) = m := by
  have e := trList_trList m.cols m.rows h
  have l := (trList_spec m.cols m.rows h).1
  obtain ⟨rows, cols⟩ := m
  simp only [matTr] at *
  simp only [trList] at e l
  rw [Mat.mk.injEq]
  exact ⟨e, l⟩

/-- **C16** In place. For every well-formed data set with a matrix or text (and, if the text is to be
transposed and has names, with row names): the call is defined, the matrix is transposed, the text is
transposed or left, row and column names are exchanged, vector, weights, title, text names and the
error flag are untouched. -/
theorem C16_in_place (p : Page α) (h : p.WF) (tt : Bool) (hm : p.matrix.isSome ∨ p.textsize.1 ≠ 0)
    (hn : ∀ n, p.names = some n → n.text = [] ∨ n.row ≠ []) :
    ∃ q, inPlace p tt = .ok q ∧ MatTr p.matrix q.matrix ∧
      (if tt then IsTr p.text q.text p.textsize.1 p.textsize.2 ∧ q.textsize = (p.textsize.2, p.textsize.1)
       else q.text = p.text ∧ q.textsize = p.textsize) ∧
      q.vector = p.vector ∧ q.weights = p.weights ∧ q.error = p.error ∧
      (∀ n, p.names = some n → ∃ m, q.names = some m ∧ m.row = n.col ∧ m.col = n.row ∧ m.text = n.text ∧
        m.title = n.title ∧ m.vector = n.vector) ∧
      (p.names = none → q.names = none) ∧ q.WF := by
  obtain ⟨hmat, htext, hz⟩ := h
  have hmt : MatTr p.matrix (p.matrix.map matTr) := by
    cases hpm : p.matrix with
    | none => trivial
    | some m => exact matTr_spec m (hmat m hpm)
  have hmw : ∀ m, p.matrix.map matTr = some m → m.WF := by
    intro m hm'
    cases hpm : p.matrix with
    | none => simp [hpm] at hm'
    | some m0 =>
      simp only [hpm, Option.map_some, Option.some.injEq] at hm'
      subst hm'
      exact (trList_spec m0.cols m0.rows (hmat m0 hpm)).2.1
  have hnn : ∀ n, p.names = some n →
      ∃ m, p.names.map (fun n => ({ n with col := n.row, row := n.col } : Names)) = some m ∧
        m.row = n.col ∧ m.col = n.row ∧ m.text = n.text ∧ m.title = n.title ∧ m.vector = n.vector := by
    intro n hn'; rw [hn']; exact ⟨_, rfl, rfl, rfl, rfl, rfl, rfl⟩
  have h0 : ¬(p.matrix.isNone ∧ p.textsize.1 = 0) := by
    rintro ⟨a, b⟩; rcases hm with hm | hm
    · cases hx : p.matrix <;> simp [hx] at a hm
    · exact hm b
  rw [inPlace, if_neg h0]
  by_cases hts : (!tt) = true ∨ p.textsize.1 = 0 ∨ p.textsize.2 = 0
  · simp only [if_pos hts]
    refine ⟨_, rfl, hmt, ?_, rfl, rfl, rfl, hnn, ?_, hmw, htext, hz⟩
    · cases tt with
      | false => simp
      | true =>
        simp only [Bool.not_true, Bool.false_eq_true, false_or] at hts
        have h1 : p.textsize.1 = 0 := by rcases hts with h | h; exact h; exact hz.2 h
        have h2 : p.textsize.2 = 0 := hz.1 h1
        have ht : p.text = [] := List.eq_nil_of_length_eq_zero (by rw [htext.1, h1])
        simp only [if_true]
        refine ⟨⟨htext.1, htext.2, ?_, ?_, ?_⟩, ?_⟩
        · simp [ht, h2]
        · simp [ht]
        · simp [ht, cell?]
        · rw [Prod.ext_iff]; exact ⟨h1.trans h2.symm, h2.trans h1.symm⟩
    · intro hnone; simp [hnone]
  · simp only [if_neg hts]
    have ht1 : p.textsize.1 ≠ 0 := fun e => hts (Or.inr (Or.inl e))
    have ht2 : p.textsize.2 ≠ 0 := fun e => hts (Or.inr (Or.inr e))
    have htt : tt = true := by cases tt <;> simp_all
    have key := fun ns => textInPlace_eq (⟨p.vector, p.matrix.map matTr, ns, p.text, p.textsize, p.weights,
      p.error⟩ : Page α) htext ht1 ht2
    rw [key]
    obtain ⟨t1, t2, t3⟩ := trList_spec p.textsize.2 p.text htext.2
    have hres : IsTr p.text (trList p.textsize.2 p.text) p.textsize.1 p.textsize.2 :=
      ⟨htext.1, htext.2, t1, by rw [← htext.1]; exact t2, t3⟩
    simp only [Res.bind_ok]
    have hwf : (⟨p.vector, p.matrix.map matTr, p.names.map (fun n => ({ n with col := n.row, row := n.col } : Names)),
        trList p.textsize.2 p.text, (p.textsize.2, p.textsize.1), p.weights, p.error⟩ : Page α).WF :=
      ⟨hmw, ⟨t1, by intro r hr; rw [t2 r hr]; exact htext.1⟩, hz.symm⟩
    cases hnm : p.names with
    | none =>
      simp only [Option.map_none]
      rw [hnm] at hwf
      exact ⟨_, rfl, hmt, by simp [htt, hres], rfl, rfl, rfl, by simp, fun _ => rfl, hwf⟩
    | some n =>
      simp only [Option.map_some]
      have : ¬(n.text ≠ [] ∧ n.row = []) := by
        rintro ⟨a, b⟩; rcases hn n hnm with h | h; exact a h; exact h b
      rw [if_neg this]
      rw [hnm] at hwf
      exact ⟨_, rfl, hmt, by simp [htt, hres], rfl, rfl, rfl,
        fun n' e => by cases e; exact ⟨_, rfl, rfl, rfl, rfl, rfl, rfl⟩, by simp, hwf⟩

/-- **C16** In place, twice: with the same choice of `transpose_text`, every well-formed data set with a
matrix or text comes back unchanged, provided that text names, if any, come with both row and column names. -/
theorem C16_twice (p : Page α) (h : p.WF) (tt : Bool) (hm : p.matrix.isSome ∨ p.textsize.1 ≠ 0)
    (hn : ∀ n, p.names = some n → n.text = [] ∨ (n.row ≠ [] ∧ n.col ≠ [])) :
    (inPlace p tt >>= fun q => inPlace q tt) = .ok p := by
  obtain ⟨hmat, htext, hz⟩ := h
  have h0 : ¬(p.matrix.isNone ∧ p.textsize.1 = 0) := by
    rintro ⟨a, b⟩; rcases hm with hm | hm
    · cases hx : p.matrix <;> simp [hx] at a hm
    · exact hm b
  have hmm : (p.matrix.map matTr).map matTr = p.matrix := by
    cases hpm : p.matrix with
    | none => rfl
    | some m => simp [matTr_matTr m (hmat m hpm)]
  have hnn : (p.names.map (fun n => ({ n with col := n.row, row := n.col } : Names))).map
      (fun n => ({ n with col := n.row, row := n.col } : Names)) = p.names := by
    cases p.names <;> rfl
  rw [inPlace, if_neg h0]
  by_cases hts : (!tt) = true ∨ p.textsize.1 = 0 ∨ p.textsize.2 = 0
  · simp only [if_pos hts, Res.bind_ok]
    rw [inPlace, if_neg (by simpa using h0)]
    simp only [if_pos hts]
    simp only [hmm, hnn]
  · simp only [if_neg hts]
    have ht1 : p.textsize.1 ≠ 0 := fun e => hts (Or.inr (Or.inl e))
    have ht2 : p.textsize.2 ≠ 0 := fun e => hts (Or.inr (Or.inr e))
    have htt : tt = true := by cases tt <;> simp_all
    have key := fun ns => textInPlace_eq (⟨p.vector, p.matrix.map matTr, ns, p.text, p.textsize, p.weights,
      p.error⟩ : Page α) htext ht1 ht2
    rw [key]
    obtain ⟨t1, t2, t3⟩ := trList_spec p.textsize.2 p.text htext.2
    have step2 : ∀ (ns : Option Names), (∀ n, ns = some n → n.text = [] ∨ n.row ≠ []) →
        inPlace (⟨p.vector, p.matrix.map matTr, ns,
          trList p.textsize.2 p.text, (p.textsize.2, p.textsize.1), p.weights, p.error⟩ : Page α) tt =
        .ok ({ p with names := ns.map (fun n => ({ n with col := n.row, row := n.col } : Names)) }) := by
      intro ns hns
      rw [inPlace, if_neg (by rintro ⟨-, b⟩; exact ht2 b)]
      simp only [htt, Bool.not_true, Bool.false_eq_true, false_or]
      rw [if_neg (by rintro (h | h); exact ht2 h; exact ht1 h)]
      have key2 := fun ns => textInPlace_eq (⟨p.vector, (p.matrix.map matTr).map matTr, ns, trList p.textsize.2 p.text,
        (p.textsize.2, p.textsize.1), p.weights, p.error⟩ : Page α)
        ⟨t1, by intro r hr; rw [t2 r hr]; exact htext.1⟩ ht2 ht1
      rw [key2]
      simp only [Res.bind_ok, hmm]
      have e := trList_trList p.textsize.2 p.text htext.2
      rw [htext.1] at e
      rw [e]
      cases ns with
      | none => rfl
      | some n =>
        simp only [Option.map_some]
        rw [if_neg]
        rintro ⟨a, b⟩; rcases hns n rfl with h | h; exact a h; exact h b
    simp only [Res.bind_ok]
    cases hnm : p.names with
    | none =>
      simp only [Option.map_none, Res.bind_ok]
      rw [step2 none (by simp)]
      simp only [Option.map_none]
      obtain ⟨v, m, ns, t, ts, w, er⟩ := p
      simp only at hnm; subst hnm; rfl
    | some n =>
      simp only [Option.map_some]
      have hnr := hn n hnm
      rw [if_neg (by rintro ⟨a, b⟩; rcases hnr with h | h; exact a h; exact h.1 b)]
      simp only [Res.bind_ok]
      rw [step2 _ (by intro n' e; cases e; rcases hnr with h | h; exact Or.inl h; exact Or.inr h.2)]
      simp only [Option.map_some]
      obtain ⟨v, m, ns, t, ts, w, er⟩ := p
      simp only at hnm; subst hnm; rfl

/-! ### the copy -/

/-- Specification: printing the string as a bare `printf` format reproduces it, i.e. it holds no `%`. -/
def NoPercent (s : CStr) : Prop := ∀ c ∈ s, c ≠ 37

theorem fmtOnly_plain (s : CStr) (h : NoPercent s) : fmtOnly s = .ok s := by
  induction s with
  | nil => rw [fmtOnly]
  | cons c cs ih =>
    have hc := h c (by simp)
    have := ih (fun x hx => h x (by simp [hx]))
    unfold fmtOnly
    rw [if_neg hc, this]; rfl

theorem textRowCopy_ok (r : Nat) : ∀ (ss : List CStr) (c : Nat) (g : List (List CStr)), (∀ s ∈ ss, NoPercent s) →
    (∀ k, k < ss.length → (cell? g (c + k) r).isSome) →
    ∃ g', textRowCopy r c ss g = .ok g' ∧ shape g' = shape g ∧
      ∀ a b, cell? g' a b = if b = r ∧ c ≤ a ∧ a < c + ss.length then ss[a - c]? else cell? g a b := by
  intro ss
  induction ss with
  | nil => intro c g _ _; exact ⟨g, rfl, rfl, fun a b => by rw [if_neg (by simp only [List.length_nil]; omega)]⟩
  | cons s ss ih =>
    intro c g hp hs
    have h0 := hs 0 (by simp)
    obtain ⟨g1, e1, s1, c1⟩ := wrText_ok h0 s
    simp only [Nat.add_zero] at e1 c1
    obtain ⟨g2, e2, s2, c2⟩ := ih (c + 1) g1 (fun x hx => hp x (by simp [hx])) (by
      intro k hk
      rw [cell?_isSome, s1, ← cell?_isSome, show c + 1 + k = c + (k + 1) by omega]
      exact hs _ (by simp; omega))
    refine ⟨g2, by simp only [textRowCopy, fmtOnly_plain s (hp s (by simp)), Res.bind_ok, e1, e2], s2.trans s1, ?_⟩
    intro a b
    rw [c2, c1]
    by_cases hb : b = r
    · by_cases ha : a = c
      · subst ha
        rw [if_neg (by omega), if_pos ⟨rfl, hb⟩, if_pos ⟨hb, Nat.le_refl _, by simp⟩]; simp
      · by_cases hr : c + 1 ≤ a ∧ a < c + 1 + ss.length
        · rw [if_pos ⟨hb, hr⟩, if_pos ⟨hb, by omega, by simp; omega⟩]
          obtain ⟨k, hk⟩ : ∃ k, a - c = k + 1 := ⟨a - c - 1, by omega⟩
          rw [hk, List.getElem?_cons_succ]; congr 1; omega
        · rw [if_neg (by omega), if_neg (by omega), if_neg (by simp; omega)]
    · rw [if_neg (by omega), if_neg (by omega), if_neg (by omega)]

theorem textCopy_ok (C : Nat) : ∀ (rows : List (List CStr)) (r : Nat) (g : List (List CStr)),
    (∀ row ∈ rows, row.length = C ∧ ∀ s ∈ row, NoPercent s) →
    (∀ a k, a < C → k < rows.length → (cell? g a (r + k)).isSome) →
    ∃ g', textCopy r rows g = .ok g' ∧ shape g' = shape g ∧
      ∀ a b, a < C → cell? g' a b = if r ≤ b ∧ b < r + rows.length then cell? rows (b - r) a else cell? g a b := by
  intro rows
  induction rows with
  | nil => intro r g _ _; exact ⟨g, rfl, rfl, fun a b _ => by rw [if_neg (by simp only [List.length_nil]; omega)]⟩
  | cons row rows ih =>
    intro r g hp hs
    obtain ⟨hl, hpc⟩ := hp row (by simp)
    obtain ⟨g1, e1, s1, c1⟩ := textRowCopy_ok r row 0 g hpc (by
      intro k hk; rw [Nat.zero_add]; exact hs k 0 (by omega) (by simp))
    obtain ⟨g2, e2, s2, c2⟩ := ih (r + 1) g1 (fun x hx => hp x (by simp [hx])) (by
      intro a k ha hk
      rw [cell?_isSome, s1, ← cell?_isSome, show r + 1 + k = r + (k + 1) by omega]
      exact hs _ _ ha (by simp; omega))
    refine ⟨g2, by simp only [textCopy, e1, Res.bind_ok, e2], s2.trans s1, ?_⟩
    intro a b ha
    rw [c2 a b ha, c1]
    by_cases hb : b = r
    · subst hb
      rw [if_neg (by omega), if_pos ⟨rfl, by omega, by omega⟩, if_pos ⟨Nat.le_refl _, by simp⟩]
      simp [cell?]
    · by_cases hr : r + 1 ≤ b ∧ b < r + 1 + rows.length
      · rw [if_pos hr, if_pos ⟨by omega, by simp; omega⟩]
        obtain ⟨k, hk⟩ : ∃ k, b - r = k + 1 := ⟨b - r - 1, by omega⟩
        rw [hk, show b - (r + 1) = k by omega]; simp [cell?]
      · rw [if_neg hr, if_neg (by omega), if_neg (by simp; omega)]

/-- Row, column and text names of the copy, from those of the input. -/
theorem copyNames (n : Names) :
    let m := (Names.alloc.stack (some n) (some 'r') (some 'c')).stack (some n) (some 'c') (some 'r')
    m.row = n.col ∧ m.col = n.row ∧ m.text = [] ∧ m.title = none ∧ m.vector = none ∧ m.Good := by
  simp only
  have hg : ((Names.alloc.stack (some n) (some 'r') (some 'c')).stack (some n) (some 'c') (some 'r')).Good :=
    Names.good_stack (Names.good_stack Names.good_alloc _ _ _) _ _ _
  refine ⟨?_, ?_, ?_, ?_, ?_, hg⟩ <;>
  simp [Names.stack, Names.stackTypes, (Names.addAll_of_col (t := 'c') (by decide) (by decide) (by decide) (by decide)),
      Names.addAll_of_row, Names.alloc]

/-- **C16** To a copy, with a matrix: for every well-formed data set with a non-empty matrix and no `%` in
its text: the output's matrix is the transposed matrix, its text the transposed text (or none, if not
asked for), the column names become row names and the row names column names, and every name of the
output can be looked up. Vector and weights are NULL. -/
theorem C16_copy_matrix (p : Page α) (h : p.WF) (tt : Bool) (m : Mat α) (hm : p.matrix = some m)
    (hr : m.size1 ≠ 0) (hc : m.cols ≠ 0) (hp : ∀ row ∈ p.text, ∀ s ∈ row, NoPercent s) :
    ∃ q, toCopy p tt = .ok q ∧ MatTr p.matrix q.matrix ∧
      (if tt then IsTr p.text q.text p.textsize.1 p.textsize.2 ∧ q.textsize = (p.textsize.2, p.textsize.1)
       else q.text = [] ∧ q.textsize = (0, 0)) ∧
      q.vector = none ∧ q.weights = none ∧ q.error = none ∧
      (∃ k, q.names = some k ∧ k.Good ∧ (∀ n, p.names = some n → k.row = n.col ∧ k.col = n.row) ∧
        (p.names = none → k.row = [] ∧ k.col = []) ∧
        (∀ (s : Option CStr) (t : Char), ∃ v, k.find s t = .ok v)) ∧ q.WF := by
  obtain ⟨hmat, htext, hz⟩ := h
  have hmw := hmat m hm
  have hmt := matTr_spec m hmw
  have hmtw : (matTr m).WF := (trList_spec m.cols m.rows hmw).2.1
  rw [toCopy, if_neg (by simp [hm]), if_neg (by simp [hm, hr, hc])]
  simp only [hm, Option.isSome_some, if_true, Option.map_some]
  -- the names after the two stacks
  have hk : ∀ k, k = (Names.alloc.stack p.names (some 'r') (some 'c')).stack p.names (some 'c') (some 'r') →
      k.Good ∧ (∀ n, p.names = some n → k.row = n.col ∧ k.col = n.row) ∧
        (p.names = none → k.row = [] ∧ k.col = []) := by
    rintro k rfl
    cases hpn : p.names with
    | none => exact ⟨Names.good_alloc, by simp, fun _ => ⟨rfl, rfl⟩⟩
    | some n =>
      obtain ⟨a, b, -, -, -, g⟩ := copyNames n
      exact ⟨g, fun n' e => by cases e; exact ⟨a, b⟩, by simp⟩
  generalize hK : (Names.alloc.stack p.names (some 'r') (some 'c')).stack p.names (some 'c') (some 'r') = K
  obtain ⟨k1, k2, k3⟩ := hk K hK.symm
  by_cases hts : (!tt) = true ∨ p.textsize.1 = 0 ∨ p.textsize.2 = 0
  · simp only [if_pos hts]
    refine ⟨_, rfl, hmt, ?_, rfl, rfl, rfl, ⟨K, rfl, k1, k2, k3, fun s t => Names.find_total k1 s t⟩, ?_⟩
    · cases tt with
      | false => simp [Page.empty]
      | true =>
        simp only [Bool.not_true, Bool.false_eq_true, false_or] at hts
        have h1 : p.textsize.1 = 0 := by rcases hts with h | h; exact h; exact hz.2 h
        have h2 : p.textsize.2 = 0 := hz.1 h1
        have ht : p.text = [] := List.eq_nil_of_length_eq_zero (by rw [htext.1, h1])
        simp only [if_true, Page.empty, h1, h2, and_true]
        refine ⟨by simp [ht], by simp [ht], rfl, by simp, by simp [ht, cell?]⟩
    · refine ⟨by intro m' e; cases e; exact hmtw, ⟨rfl, by simp [Page.empty]⟩, by simp [Page.empty]⟩
  · simp only [if_neg hts]
    have ht1 : p.textsize.1 ≠ 0 := fun e => hts (Or.inr (Or.inl e))
    have ht2 : p.textsize.2 ≠ 0 := fun e => hts (Or.inr (Or.inr e))
    have htt : tt = true := by cases tt <;> simp_all
    obtain ⟨g, e, hs, hcell⟩ := textCopy_ok p.textsize.2 p.text 0
      (List.replicate p.textsize.2 (List.replicate p.textsize.1 []))
      (fun row hrow => ⟨htext.2 row hrow, hp row hrow⟩) (by
        intro a k ha hk
        rw [Nat.zero_add]
        rw [htext.1] at hk
        simp [cell?, List.getElem?_replicate, ha, hk])
    rw [e]
    simp only [Res.bind_ok]
    have hgl : g.length = p.textsize.2 := by simpa [shape] using congrArg List.length hs
    have hgr : ∀ r ∈ g, r.length = p.textsize.1 := by
      intro r hr'
      have : r.length ∈ shape g := List.mem_map_of_mem hr'
      rw [hs] at this
      simp [shape] at this
      exact this.2
    have hlast : ∀ L, L = lastNames K p.names → L.Good ∧ L.row = K.row ∧ L.col = K.col := by
      rintro L rfl
      unfold lastNames
      split
      · exact ⟨k1, rfl, rfl⟩
      · split
        · refine ⟨Names.good_stack k1 _ _ _, ?_, ?_⟩ <;> simp [Names.stack, Names.stackTypes, Names.addAll_of_text]
        · exact ⟨k1, rfl, rfl⟩
    obtain ⟨l1, l2, l3⟩ := hlast _ rfl
    refine ⟨_, rfl, hmt, ?_, rfl, rfl, rfl, ⟨_, rfl, l1, by rw [l2, l3]; exact k2, by rw [l2, l3]; exact k3,
      fun s t => Names.find_total l1 s t⟩, ?_⟩
    · simp only [htt, if_true, and_true]
      refine ⟨htext.1, htext.2, hgl, hgr, ?_⟩
      intro i j
      by_cases hj : j < p.textsize.2
      · rw [hcell j i hj, Nat.zero_add, htext.1]
        by_cases hi : i < p.textsize.1
        · rw [if_pos ⟨Nat.zero_le _, hi⟩]; rfl
        · rw [if_neg (by omega)]
          have a : cell? p.text i j = none := by unfold cell?; rw [List.getElem?_eq_none (by rw [htext.1]; omega)]; rfl
          rw [a]; simp [cell?, List.getElem?_replicate, hj, hi]
      · rw [cell?_none p.text p.textsize.2 i j htext.2 (by omega)]
        unfold cell?; rw [List.getElem?_eq_none (by omega)]; rfl
    · exact ⟨by intro m' e; cases e; exact hmtw, ⟨hgl, hgr⟩, hz.symm⟩

/-- **C16** To a copy, text only: for every well-formed data set without a matrix, with text holding no `%`:
the output's text is the transposed text; it has no row or column names. -/
theorem C16_copy_text (p : Page α) (h : p.WF) (hm : p.matrix = none) (ht1 : p.textsize.1 ≠ 0)
    (hp : ∀ row ∈ p.text, ∀ s ∈ row, NoPercent s) :
    ∃ q, toCopy p true = .ok q ∧ IsTr p.text q.text p.textsize.1 p.textsize.2 ∧
      q.textsize = (p.textsize.2, p.textsize.1) ∧ q.matrix = none ∧
      q.vector = none ∧ q.weights = none ∧ q.error = none ∧
      (∃ k, q.names = some k ∧ k.Good ∧ k.row = [] ∧ k.col = []) ∧ q.WF := by
  obtain ⟨-, htext, hz⟩ := h
  have ht2 : p.textsize.2 ≠ 0 := fun e => ht1 (hz.2 e)
  rw [toCopy, if_neg (by simp [ht1]), if_neg (by simp [hm])]
  simp only [hm, Option.isSome_none, Bool.false_eq_true, if_false, Option.map_none]
  simp only [Bool.not_true, Bool.false_eq_true, ht1, ht2, or_self, if_false]
  obtain ⟨g, e, hs, hcell⟩ := textCopy_ok p.textsize.2 p.text 0
    (List.replicate p.textsize.2 (List.replicate p.textsize.1 []))
    (fun row hrow => ⟨htext.2 row hrow, hp row hrow⟩) (by
      intro a k ha hk
      rw [Nat.zero_add]
      rw [htext.1] at hk
      simp [cell?, ha, hk])
  rw [e]
  simp only [Res.bind_ok]
  have hgl : g.length = p.textsize.2 := by simpa [shape] using congrArg List.length hs
  have hgr : ∀ r ∈ g, r.length = p.textsize.1 := by
    intro r hr'
    have : r.length ∈ shape g := List.mem_map_of_mem hr'
    rw [hs] at this
    simp [shape] at this
    exact this.2
  have hlast : ∀ L, L = lastNames Names.alloc p.names → L.Good ∧ L.row = [] ∧ L.col = [] := by
    rintro L rfl
    unfold lastNames
    split
    · exact ⟨Names.good_alloc, rfl, rfl⟩
    · split
      · refine ⟨Names.good_stack Names.good_alloc _ _ _, ?_, ?_⟩ <;>
          simp [Names.stack, Names.stackTypes, Names.addAll_of_text, Names.alloc]
      · exact ⟨Names.good_alloc, rfl, rfl⟩
  obtain ⟨l1, l2, l3⟩ := hlast _ rfl
  refine ⟨_, rfl, ⟨htext.1, htext.2, hgl, hgr, ?_⟩, rfl, rfl, rfl, rfl, rfl, ⟨_, rfl, l1, l2, l3⟩,
    by simp, ⟨hgl, hgr⟩, hz.symm⟩
  intro i j
  by_cases hj : j < p.textsize.2
  · rw [hcell j i hj, Nat.zero_add, htext.1]
    by_cases hi : i < p.textsize.1
    · rw [if_pos ⟨Nat.zero_le _, hi⟩]; rfl
    · rw [if_neg (by omega)]
      have a : cell? p.text i j = none := by unfold cell?; rw [List.getElem?_eq_none (by rw [htext.1]; omega)]; rfl
      rw [a]; simp [cell?, hj, hi]
  · rw [cell?_none p.text p.textsize.2 i j htext.2 (by omega)]
    unfold cell?; rw [List.getElem?_eq_none (by simp only [hgl]; omega)]; rfl

/-- Non-trivial instance of the hypotheses: 2×3 numbers, 3×1 text, all kinds of names. -/
def samplePage : Page Int :=
  { vector := some [7, 8], matrix := some ⟨[[1, 2, 3], [4, 5, 6]], 3⟩, text := [[[65]], [[]], [[66, 67]]],
    textsize := (3, 1), names := some { row := [[97], [98]], col := [[120]], text := [[116]] } }

instance (p : Page α) : Decidable p.WF := by unfold Page.WF Page.TextWF; exact
  (match h : p.matrix with
   | none => decidable_of_iff ((p.text.length = p.textsize.1 ∧ ∀ r ∈ p.text, r.length = p.textsize.2) ∧
      (p.textsize.1 = 0 ↔ p.textsize.2 = 0)) (by simp)
   | some m => decidable_of_iff (m.WF ∧ (p.text.length = p.textsize.1 ∧ ∀ r ∈ p.text, r.length = p.textsize.2) ∧
      (p.textsize.1 = 0 ↔ p.textsize.2 = 0)) (by simp))

example : samplePage.WF ∧ samplePage.matrix.isSome ∧
    (∀ n, samplePage.names = some n → n.text = [] ∨ (n.row ≠ [] ∧ n.col ≠ [])) ∧
    (∀ row ∈ samplePage.text, ∀ s ∈ row, NoPercent s) := by
  refine ⟨by decide, rfl, by intro n e; cases e; decide, by unfold NoPercent; decide⟩

example : (inPlace samplePage true >>= fun q => .ok (q.matrix, q.text, q.textsize)) =
    .ok (some ⟨[[1, 4], [2, 5], [3, 6]], 2⟩, [[[65], [], [66, 67]]], (1, 3)) := by decide

/-! ### what does not hold -/

/-- The in-place call exchanges the lists but not the hashes: afterwards a lookup can run off the
hash block. Here a set built by adds (rows a, b; column x). -/
theorem C16_in_place_lookup_ub :
    let n := (((Names.alloc.add (some [97]) 'r').1.add (some [98]) 'r').1.add (some [120]) 'c').1
    let p : Page Int := { matrix := some ⟨[[1], [2]], 1⟩, names := some n }
    p.WF ∧ (∀ (s : Option CStr) (t : Char), ∃ v, n.find s t = .ok v) ∧
    ∃ q m, inPlace p true = .ok q ∧ q.names = some m ∧ m.find (some [122]) 'c' = .ub := by
  refine ⟨by decide, ?_, _, _, rfl, rfl, by decide⟩
  intro s t
  exact Names.find_total (Names.good_add (Names.good_add (Names.good_add Names.good_alloc _ _) _ _) _ _) s t

/-- A `%` in the text is interpreted as a format by the copying version. -/
theorem C16_copy_percent :
    toCopy ({ text := [[str "5%"]], textsize := (1, 1) } : Page Int) true = .ub ∧
    (toCopy ({ text := [[str "5%%"]], textsize := (1, 1) } : Page Int) true >>= fun q => .ok q.text) =
      .ok [[str "5%"]] :=
  ⟨by decide +kernel, by decide +kernel⟩

/-- With text and text names but no matrix, the doc says text names become row names; the code appends the
input's row names to the output's text names instead. -/
theorem C16_text_names_backwards :
    (toCopy ({ text := [[[65]]], textsize := (1, 1)
               names := some { text := [[84]], row := [[82]] } } : Page Int) true >>=
      fun q => .ok (q.names.map (fun k => (k.row, k.text)))) = .ok (some ([], [[82]])) := by
  decide

/-- With neither matrix nor text the in-place call returns another, empty set; the vector is not in it. -/
theorem C16_vector_only (v : List Int) :
    inPlace { vector := some v, names := none } true = .ok Page.empty := rfl

end Apop.Transpose
