import Verif.Asst.Model
import Verif.Text.Props

/-! # C28: regular expressions -/

namespace Apop.Asst
open Text (Grid)

/-! ## Counting parentheses -/

/-- A regular expression read as tokens: a backslash with the byte after it, or one byte. -/
inductive Tok where
  | esc (c : UInt8)
  | one (c : UInt8)
  deriving DecidableEq

def Tok.bytes : Tok → CStr
  | esc c => [92, c]
  | one c => [c]

/-- **C28, number of columns**: for every sequence of tokens, the columns counted are the unescaped closing parentheses. -/
theorem C28_columns (ts : List Tok) (h : Tok.one 92 ∉ ts) : countParens (ts.flatMap Tok.bytes) = ts.count (Tok.one 41) := by
  induction ts with
  | nil => rfl
  | cons t ts ih =>
    have ih' := ih (fun hm => h (by simp [hm]))
    unfold countParens at ih' ⊢
    rw [List.flatMap_cons, List.count_cons]
    cases t with
    | esc c =>
      simp only [Tok.bytes, List.cons_append, List.nil_append, countParensFrom]
      simp [ih']
    | one c =>
      have hc : c ≠ 92 := by rintro rfl; exact h (by simp)
      simp only [Tok.bytes, List.cons_append, List.nil_append, countParensFrom]
      rw [if_neg (by simp [hc]), ih']
      by_cases h41 : c = 41
      · simp [h41]; omega
      · simp [h41]

/-- Every string is such a sequence, perhaps with one lone backslash at the end, which adds nothing. -/
theorem C28_columns_total (s : CStr) : ∃ ts : List Tok, Tok.one 92 ∉ ts ∧ (s = ts.flatMap Tok.bytes ∨ s = ts.flatMap Tok.bytes ++ [92]) := by
  have key : ∀ (n : Nat) (s : CStr), s.length ≤ n → ∃ ts : List Tok, Tok.one 92 ∉ ts ∧ (s = ts.flatMap Tok.bytes ∨ s = ts.flatMap Tok.bytes ++ [92]) := by
    intro n
    induction n with
    | zero => intro s hs; exact ⟨[], by simp, Or.inl (by simpa using hs)⟩
    | succ n ih =>
      intro s hs
      cases s with
      | nil => exact ⟨[], by simp, Or.inl rfl⟩
      | cons c s =>
        by_cases hc : c = 92
        · subst hc
          cases s with
          | nil => exact ⟨[], by simp, Or.inr rfl⟩
          | cons d s =>
            obtain ⟨ts, h1, h2⟩ := ih s (by simp at hs; omega)
            exact ⟨.esc d :: ts, by simp [h1], by simpa [Tok.bytes] using h2⟩
        · obtain ⟨ts, h1, h2⟩ := ih s (by simp at hs; omega)
          exact ⟨.one c :: ts, by simp [h1]; exact fun e => hc e.symm, by simpa [Tok.bytes] using h2⟩
  exact key s.length s (Nat.le_refl _)

/-! ## Matches -/

/-- What POSIX promises of a matcher for an expression with `parens` parts: the match is inside the string, and each part
is either unused (-1,-1) or inside the match. -/
structure Good (exec : Matcher) (parens : Nat) : Prop where
  inside : ∀ b s m, exec b s = some m → 0 ≤ m.whole.1 ∧ m.whole.1 ≤ m.whole.2 ∧ m.whole.2 ≤ s.length
  count : ∀ b s m, exec b s = some m → m.parts.length = parens
  part : ∀ b s m, exec b s = some m → ∀ r ∈ m.parts, r = (-1, -1) ∨ (m.whole.1 ≤ r.1 ∧ r.1 ≤ r.2 ∧ r.2 ≤ m.whole.2)

/-- The text of a part; empty if it is unused. -/
def sub (s : CStr) (r : Int × Int) : CStr := if r.1 < 0 then [] else (s.drop r.1.toNat).take (r.2 - r.1).toNat

theorem putCell_eq (g : Grid) (hg : g.WF) (i j : Nat) (s : CStr) (hi : i < g.size.1) (hj : j < g.size.2) :
    ∃ g', putCell g i j s = .ok g' ∧ g'.WF ∧ g'.size = g.size ∧
      ∀ i' j', g'.get i' j' = if i' = i ∧ j' = j then some s else g.get i' j' := by
  unfold putCell
  cases ht : g.text with
  | none =>
    have : g.size = (0, 0) := by simpa [Grid.WF, ht] using hg
    simp [this] at hi
  | some t =>
    have hwf := hg
    simp only [Grid.WF, ht] at hwf
    obtain ⟨h0, h1, hl, hrw⟩ := hwf
    have hrt : i < t.length := by omega
    obtain ⟨hrl, hru⟩ := hrw t[i] (List.getElem_mem _)
    have hct : j < t[i].length := by omega
    simp only [rd_of_lt hrt, rd_of_lt hct, Res.bind_ok]
    have hne : t[i][j] ≠ .uninit := fun he => hru (he ▸ List.getElem_mem hct)
    rw [if_neg hne]
    simp only [wr_of_lt hct, wr_of_lt hrt, Res.bind_ok]
    refine ⟨_, rfl, ?_, rfl, ?_⟩
    · simp only [Grid.WF]
      refine ⟨h0, h1, by simp [hl], ?_⟩
      intro r hm
      rcases List.mem_or_eq_of_mem_set hm with hm | rfl
      · exact hrw r hm
      · refine ⟨by simp [hrl], ?_⟩
        intro hu
        rcases List.mem_or_eq_of_mem_set hu with hu | hu
        · exact hru hu
        · cases hu
    · intro i' j'
      simp only [Grid.get, ht]
      by_cases hi' : i' = i
      · subst hi'
        simp only [List.getElem?_set_self hrt, Option.bind_some, true_and]
        by_cases hj' : j' = j
        · subst hj'; simp [List.getElem?_set_self hct]
        · rw [List.getElem?_set_ne (by omega), if_neg hj']
          simp [List.getElem?_eq_getElem hrt]
      · rw [List.getElem?_set_ne (by omega), if_neg (by omega)]

theorem putParts_eq (s : CStr) (m : Match) (row : Nat)
    (hp : ∀ r ∈ m.parts, r = (-1, -1) ∨ (0 ≤ r.1 ∧ r.1 ≤ r.2 ∧ r.2 ≤ s.length)) :
    ∀ (n j : Nat) (g : Grid), g.WF → row < g.size.1 → j + n ≤ g.size.2 → j + n ≤ m.parts.length →
      (∀ j', j ≤ j' → j' < j + n → g.get row j' = some []) →
      ∃ g', putParts s m row n j g = .ok g' ∧ g'.WF ∧ g'.size = g.size ∧
        ∀ i' j', g'.get i' j' = if i' = row ∧ j ≤ j' ∧ j' < j + n then (m.parts[j']?).map (sub s) else g.get i' j'
  | 0, j, g, hg, _, _, _, _ => ⟨g, rfl, hg, rfl, by intro i' j'; rw [if_neg (by omega)]⟩
  | n + 1, j, g, hg, hr, hc, hl, he => by
    have hjl : j < m.parts.length := by omega
    have hj := hp m.parts[j] (List.getElem_mem hjl)
    -- the cell after this round
    have step : ∃ g1, (if m.parts[j].2 > 0 then do
          let x ← span s m.parts[j]
          putCell g row j x
        else .ok g : Res Grid) = .ok g1 ∧ g1.WF ∧ g1.size = g.size ∧
        ∀ i' j', g1.get i' j' = if i' = row ∧ j' = j then some (sub s m.parts[j]) else g.get i' j' := by
      by_cases hpos : m.parts[j].2 > 0
      · rw [if_pos hpos]
        have h3 : 0 ≤ m.parts[j].1 ∧ m.parts[j].1 ≤ m.parts[j].2 ∧ m.parts[j].2 ≤ s.length := by
          rcases hj with h | h
          · rw [h] at hpos; simp at hpos
          · exact h
        obtain ⟨g1, a, b, c, d⟩ := putCell_eq g hg row j (sub s m.parts[j]) hr (by omega)
        refine ⟨g1, ?_, b, c, d⟩
        have : span s m.parts[j] = .ok (sub s m.parts[j]) := by
          rw [span, if_pos h3, sub, if_neg (by omega)]
        rw [this]
        exact a
      · rw [if_neg hpos]
        refine ⟨g, rfl, hg, rfl, ?_⟩
        intro i' j'
        split
        · rename_i h
          obtain ⟨rfl, rfl⟩ := h
          rw [he _ (by omega) (by omega)]
          have : sub s m.parts[j'] = [] := by
            unfold sub
            split
            · rfl
            · have h2 : (m.parts[j'].2 - m.parts[j'].1).toNat = 0 := by omega
              rw [h2]; simp
          rw [this]
        · rfl
    obtain ⟨g1, a1, b1, c1, d1⟩ := step
    obtain ⟨g', a, b, c, d⟩ := putParts_eq s m row hp n (j + 1) g1 b1 (by rw [c1]; exact hr) (by rw [c1]; omega) (by omega)
      (by
        intro j' h1 h2
        rw [d1, if_neg (by omega)]
        exact he j' (by omega) (by omega))
    refine ⟨g', ?_, b, c.trans c1, ?_⟩
    · rw [putParts, rd_of_lt hjl]
      simp only [Res.bind_ok]
      rw [a1]
      exact a
    · intro i' j'
      rw [d, d1]
      by_cases h1 : i' = row ∧ j' = j
      · obtain ⟨rfl, rfl⟩ := h1
        rw [if_neg (by omega), if_pos ⟨rfl, rfl⟩, if_pos (by omega), List.getElem?_eq_getElem hjl]
        rfl
      · by_cases h2 : i' = row ∧ j + 1 ≤ j' ∧ j' < j + 1 + n
        · rw [if_pos h2, if_pos (by omega)]
        · rw [if_neg h2, if_neg h1, if_neg (by omega)]

/-- The sequence of matches, each with the offset in `s` from which it was looked for: the first from the start, each further
one from the end of the one before, until nothing is found or the string is used up. -/
def Follows (exec : Matcher) (s : CStr) : Nat → Nat → List (Nat × Match) → Prop
  | off, row, [] => (row ≠ 0 ∧ off = s.length) ∨ (exec (row ≠ 0) (s.drop off) = none ∧ (row ≠ 0 → off ≠ s.length))
  | off, row, (o, m) :: hs => o = off ∧ (row ≠ 0 → off ≠ s.length) ∧ exec (row ≠ 0) (s.drop off) = some m ∧
      Follows exec s (off + m.whole.2.toNat) (row + 1) hs

/-- The state of the grid after `row` matches. -/
structure GridAt (parens : Nat) (row : Nat) (g : Grid) : Prop where
  wf : g.WF
  size : g.size = if row = 0 then (0, 0) else (row, parens)

theorem round_eq (exec : Matcher) (parens : Nat) (hp : 0 < parens) (hgood : Good exec parens) (b : Bool) (s : CStr) (m : Match)
    (hm : exec b s = some m) (row : Nat) (g : Grid) (hg : GridAt parens row g) :
    ∃ g', regexRound parens s m row g = .ok (g', s.drop m.whole.2.toNat) ∧ GridAt parens (row + 1) g' ∧
      (∀ i j, i < row → g'.get i j = g.get i j) ∧ ∀ j, g'.get row j = (m.parts[j]?).map (sub s) := by
  obtain ⟨i1, i2, i3⟩ := hgood.inside b s m hm
  have hcnt := hgood.count b s m hm
  have hs1 : g.size.1 = row := by rw [hg.size]; split <;> simp [*]
  have hs2 : row ≠ 0 → g.size.2 = parens := by intro h; rw [hg.size, if_neg h]
  obtain ⟨g1, a1, b1, -, c1⟩ := Text.C09_text_alloc g hg.wf (row + 1) parens (by
    by_cases h : row = 0
    · rw [hg.size, if_pos h]; simp
    · rw [hs2 h]; omega)
  obtain ⟨d1, e1⟩ := c1 (by omega)
  have hblank : ∀ j, j < parens → g1.get row j = some [] := by
    intro j hj
    rw [e1, if_pos (by omega), if_neg (by omega)]
  obtain ⟨g2, a2, b2, c2, d2⟩ := putParts_eq s m row (by
      intro r hr
      rcases hgood.part b s m hm r hr with h | h
      · exact Or.inl h
      · exact Or.inr (by omega)) parens 0 g1 b1 (by rw [d1]; simp) (by rw [d1]; simp) (by omega)
      (by intro j _ hj; exact hblank j (by omega))
  refine ⟨g2, ?_, ⟨b2, by rw [c2, d1, if_neg (by omega)]⟩, ?_, ?_⟩
  · rw [regexRound, a1]
    simp only [Res.bind_ok]
    rw [a2]
    simp only [Res.bind_ok]
    rw [advance, if_pos ⟨by omega, i3⟩]
    rfl
  · intro i j hi
    rw [d2, if_neg (by omega), e1]
    have hrow : row ≠ 0 := by omega
    by_cases hj : j < parens
    · rw [if_pos (by omega), if_pos (by rw [hs1, hs2 hrow]; omega)]
      cases hx : g.get i j with
      | some x => rfl
      | none =>
        exfalso
        have hwf := hg.wf
        cases ht : g.text with
        | none =>
          simp only [Grid.WF, ht] at hwf
          rw [hwf] at hs1
          simp at hs1; omega
        | some t =>
          simp only [Grid.WF, ht] at hwf
          obtain ⟨-, -, w1, w2⟩ := hwf
          have hit : i < t.length := by omega
          have := (w2 t[i] (List.getElem_mem hit)).1
          have hjt : j < t[i].length := by rw [this, hs2 hrow]; exact hj
          simp [Grid.get, ht, hit, hjt] at hx
    · rw [if_neg (by omega)]
      cases ht : g.text with
      | none => simp [Grid.get, ht]
      | some t =>
        have hwf := hg.wf
        simp only [Grid.WF, ht] at hwf
        obtain ⟨-, -, w1, w2⟩ := hwf
        have hit : i < t.length := by omega
        have := (w2 t[i] (List.getElem_mem hit)).1
        have hjt : ¬ j < t[i].length := by rw [this, hs2 hrow]; omega
        simp [Grid.get, ht, hit]
        rw [List.getElem?_eq_none (by omega)]; rfl
  · intro j
    rw [d2]
    by_cases hj : j < parens
    · rw [if_pos (by omega)]
    · rw [if_neg (by omega), e1, if_neg (by omega), List.getElem?_eq_none (by omega)]; rfl

theorem loop_eq (exec : Matcher) (parens : Nat) (hp : 0 < parens) (hgood : Good exec parens) (s : CStr)
    (hne : ∀ off b m, exec b (s.drop off) = some m → 0 < m.whole.2) :
    ∀ (fuel off row : Nat) (g : Grid), off ≤ s.length → (row ≠ 0 → off ≠ s.length) → s.length - off < fuel → GridAt parens row g →
      ∃ g' hits, regexLoop exec parens fuel (s.drop off) row g = some (.ok (g', row + hits.length)) ∧
        Follows exec s off row hits ∧ GridAt parens (row + hits.length) g' ∧
        (∀ i j, i < row → g'.get i j = g.get i j) ∧
        (∀ k j o m, hits[k]? = some (o, m) → g'.get (row + k) j = (m.parts[j]?).map (sub (s.drop o)))
  | 0, _, _, _, _, _, h, _ => by omega
  | fuel + 1, off, row, g, hle, hrow, hf, hg => by
    rw [regexLoop]
    cases hx : exec (row ≠ 0) (s.drop off) with
    | none =>
      exact ⟨g, [], rfl, Or.inr ⟨hx, hrow⟩, hg, fun _ _ _ => rfl, by simp⟩
    | some m =>
      obtain ⟨g1, a1, b1, c1, d1⟩ := round_eq exec parens hp hgood _ _ m hx row g hg
      have hpos := hne off _ m hx
      obtain ⟨-, -, i3⟩ := hgood.inside _ _ m hx
      rw [List.length_drop] at i3
      simp only [a1]
      rw [List.drop_drop]
      by_cases hend : s.drop (off + m.whole.2.toNat) = []
      · rw [if_pos hend]
        have hoff : off + m.whole.2.toNat = s.length := by
          have := List.drop_eq_nil_iff.1 hend; omega
        refine ⟨g1, [(off, m)], rfl, ⟨rfl, hrow, hx, Or.inl ⟨by omega, hoff⟩⟩, b1, c1, ?_⟩
        intro k j o m' hk
        cases k with
        | zero => simp at hk; obtain ⟨rfl, rfl⟩ := hk; exact d1 j
        | succ k => simp at hk
      · rw [if_neg hend]
        have hoff : off + m.whole.2.toNat ≠ s.length := by
          intro h; exact hend (List.drop_eq_nil_iff.2 (by omega))
        obtain ⟨g', hits, a, b, c, d, e⟩ := loop_eq exec parens hp hgood s hne fuel (off + m.whole.2.toNat) (row + 1) g1
          (by omega) (fun _ => hoff) (by omega) b1
        refine ⟨g', (off, m) :: hits, by rw [a]; simp only [List.length_cons]; congr 3; omega, ⟨rfl, hrow, hx, b⟩, ?_, ?_, ?_⟩
        · rw [List.length_cons, show row + (hits.length + 1) = row + 1 + hits.length by omega]; exact c
        · intro i j hi
          rw [d i j (by omega), c1 i j hi]
        · intro k j o m' hk
          cases k with
          | zero =>
            simp at hk; obtain ⟨rfl, rfl⟩ := hk
            rw [Nat.add_zero, d row j (by omega)]; exact d1 j
          | succ k =>
            rw [show row + (k + 1) = row + 1 + k by omega]
            exact e k j o m' (by simpa using hk)

/-- **C28**: for every expression with parts and every string, if no match is empty, then the search ends, the return value
is the number of matches, and row `k` of the text has the parts of match `k`, which was looked for right after match `k-1`. -/
theorem C28_matches (exec : Matcher) (parens : Nat) (hp : 0 < parens) (hgood : Good exec parens) (s : CStr)
    (hne : ∀ off b m, exec b (s.drop off) = some m → 0 < m.whole.2) :
    ∃ (g : Grid) (hits : List (Nat × Match)), (∀ fuel, s.length < fuel → regexSubs exec parens fuel s = some (.ok (g, hits.length))) ∧
      Follows exec s 0 0 hits ∧ g.size = (if hits = [] then (0, 0) else (hits.length, parens)) ∧
      ∀ k j o m, hits[k]? = some (o, m) → g.get k j = (m.parts[j]?).map (sub (s.drop o)) := by
  have h := fun fuel hf => loop_eq exec parens hp hgood s hne fuel 0 0 {} (by omega) (by simp) hf ⟨rfl, rfl⟩
  obtain ⟨g, hits, a, b, c, -, e⟩ := h (s.length + 1) (by omega)
  simp only [List.drop_zero, Nat.zero_add] at a b c e
  refine ⟨g, hits, ?_, b, ?_, ?_⟩
  · -- more fuel gives the same result
    have mono : ∀ (f f' : Nat) (s : CStr) (row : Nat) (g : Grid) r, f ≤ f' → regexLoop exec parens f s row g = some r →
        regexLoop exec parens f' s row g = some r := by
      intro f
      induction f with
      | zero => intro f' s row g r _ h; simp [regexLoop] at h
      | succ f ih =>
        intro f' s row g r hle h
        obtain ⟨f'', rfl⟩ : ∃ f'', f' = f'' + 1 := ⟨f' - 1, by omega⟩
        rw [regexLoop] at h ⊢
        cases hx : exec (row ≠ 0) s with
        | none => rw [hx] at h; exact h
        | some m =>
          rw [hx] at h
          simp only at h ⊢
          cases hr : regexRound parens s m row g with
          | ub => rw [hr] at h; exact h
          | ok y =>
            obtain ⟨g1, s1⟩ := y
            rw [hr] at h
            simp only at h ⊢
            by_cases hs : s1 = []
            · rw [if_pos hs] at h ⊢; exact h
            · rw [if_neg hs] at h ⊢
              exact ih f'' s1 (row + 1) g1 r (by omega) h
    intro fuel hf
    exact mono _ _ _ _ _ _ (by omega) a
  · rw [c.size]
    cases hits <;> simp
  · exact e

/-- The matches of `Follows` do not overlap and go from left to right. -/
theorem C28_no_overlap (exec : Matcher) (parens : Nat) (hgood : Good exec parens) (s : CStr) :
    ∀ (hits : List (Nat × Match)) (off row : Nat), Follows exec s off row hits →
      (∀ x ∈ hits, off ≤ x.1) ∧ hits.Pairwise (fun a b => (a.1 : Int) + a.2.whole.2 ≤ b.1 + b.2.whole.1) := by
  intro hits
  induction hits with
  | nil => intro _ _ _; simp
  | cons h hits ih =>
    intro off row hf
    obtain ⟨o, m⟩ := h
    obtain ⟨rfl, -, hx, hf⟩ := hf
    obtain ⟨a, b⟩ := ih _ _ hf
    obtain ⟨i1, i2, i3⟩ := hgood.inside _ _ m hx
    refine ⟨?_, List.pairwise_cons.2 ⟨?_, b⟩⟩
    · intro x hx'
      rcases List.mem_cons.1 hx' with rfl | h
      · exact Nat.le_refl _
      · have := a x h; omega
    · intro x hx'
      have h1 := a x hx'
      -- the start of a match is not negative
      have hst : 0 ≤ x.2.whole.1 := by
        have : ∀ (hits : List (Nat × Match)) (off row : Nat), Follows exec s off row hits → ∀ x ∈ hits, 0 ≤ x.2.whole.1 := by
          intro hits
          induction hits with
          | nil => intro _ _ _ x hx; simp at hx
          | cons h hits ih =>
            intro off row hf x hx
            obtain ⟨o, m⟩ := h
            obtain ⟨-, -, he, hf⟩ := hf
            rcases List.mem_cons.1 hx with rfl | h
            · exact (hgood.inside _ _ m he).1
            · exact ih _ _ hf x h
        exact this hits _ _ hf x hx'
      simp only
      omega

/-- A match that is empty and at the start of what is left makes the loop run for ever, using more memory each time. -/
theorem C28_empty_match_diverges (exec : Matcher) (parens : Nat) (s : CStr) (hs : s ≠ []) (m : Match) (hw : m.whole = (0, 0))
    (h : ∀ b, exec b s = some m) : ∀ fuel row g, (∃ r, regexLoop exec parens fuel s row g = some r) → regexLoop exec parens fuel s row g = some .ub := by
  intro fuel
  induction fuel with
  | zero => intro row g ⟨r, hr⟩; simp [regexLoop] at hr
  | succ f ih =>
    intro row g hex
    rw [regexLoop, h] at hex ⊢
    simp only at hex ⊢
    cases hr : regexRound parens s m row g with
    | ub => rfl
    | ok y =>
      obtain ⟨g1, s1⟩ := y
      have hs1 : s1 = s := by
        rw [regexRound] at hr
        obtain ⟨g2, -, hr⟩ := Res.bind_eq_ok.1 hr
        obtain ⟨g3, -, hr⟩ := Res.bind_eq_ok.1 hr
        obtain ⟨s2, h2, hr⟩ := Res.bind_eq_ok.1 hr
        rw [advance, hw, if_pos (by simp)] at h2
        injection h2 with h2
        injection hr with hr
        injection hr with _ hr
        rw [← hr, ← h2]; simp
      subst hs1
      rw [hr] at hex
      simp only at hex ⊢
      rw [if_neg hs] at hex ⊢
      exact ih _ _ hex

/-- The matcher for `(a*)`: it matches at the start of any string. -/
def aStar : Matcher := fun _ s => some ⟨(0, (s.takeWhile (· == 97)).length), [(0, (s.takeWhile (· == 97)).length)]⟩

theorem aStar_good : Good aStar 1 := by
  have hl : ∀ s : CStr, (s.takeWhile (· == 97)).length ≤ s.length := fun s => (List.takeWhile_prefix _).length_le
  refine ⟨?_, ?_, ?_⟩
  · intro b s m h
    simp only [aStar, Option.some.injEq] at h; subst h
    have := hl s
    simp only; omega
  · intro b s m h
    simp only [aStar, Option.some.injEq] at h; subst h; rfl
  · intro b s m h r hr
    simp only [aStar, Option.some.injEq] at h; subst h
    simp only [List.mem_singleton] at hr
    subst hr
    right; simp only; omega

/-- `apop_regex("b", "(a*)", &subs)` does not end: however long it runs, it is still running. -/
theorem C28_nonterminating_refuted : ∀ fuel, regexSubs aStar 1 fuel (str "b") = none := by
  have hg := aStar_good
  have hstr : str "b" = [98] := by decide +kernel
  intro fuel
  -- no round is undefined, so by the previous theorem there is no result
  have key : ∀ fuel row g, GridAt 1 row g → regexLoop aStar 1 fuel [98] row g = none := by
    intro fuel
    induction fuel with
    | zero => intro _ _ _; rfl
    | succ f ih =>
      intro row g hgr
      obtain ⟨g1, a, b, -⟩ := round_eq aStar 1 (by omega) hg (row ≠ 0) [98] ⟨(0, 0), [(0, 0)]⟩ rfl row g hgr
      rw [regexLoop]
      have hx : aStar (row ≠ 0) [98] = some ⟨(0, 0), [(0, 0)]⟩ := rfl
      rw [hx]
      simp only [a]
      have : List.drop (0 : Int).toNat [98] = ([98] : CStr) := rfl
      rw [this, if_neg (by simp)]
      exact ih (row + 1) g1 b
  rw [hstr]
  exact key fuel 0 {} ⟨rfl, rfl⟩

/-- Without parentheses in the expression the text part stays empty, whatever is found. -/
theorem C28_no_parens (s : CStr) (m : Match) (row : Nat) (g : Grid) (g' : Grid) (s' : CStr)
    (h : regexRound 0 s m row g = .ok (g', s')) : g' = g := by
  rw [regexRound, Text.alloc, if_pos (by omega)] at h
  simp only [Res.bind_ok, putParts] at h
  obtain ⟨s2, -, h⟩ := Res.bind_eq_ok.1 h
  injection h with h
  injection h with h1 _
  exact h1.symm

/-- The matcher for `([a-z])`, for the example. -/
def letter : Matcher := fun _ s =>
  (s.findIdx? (fun c => decide (97 ≤ c ∧ c ≤ 122))).map (fun i => ⟨(i, i + 1), [(i, i + 1)]⟩)

/-- Without substrings the return value is not the number of matches: it is 1 if there is any, here where there are two. -/
theorem C28_plain_count_refuted : regexPlain letter (str "ab") = 1 ∧
    regexSubs letter 1 9 (str "ab") = some (.ok (⟨some [[.own (str "a")], [.own (str "b")]], (2, 1)⟩, 2)) := by
  constructor <;> decide +kernel

example : countParens (str "([a-z]+)\\)([0-9])") = 2 := by decide +kernel
example : regexSubs letter 1 9 (str "1a2b3") = some (.ok (⟨some [[.own (str "a")], [.own (str "b")]], (2, 1)⟩, 2)) := by decide +kernel

end Apop.Asst
