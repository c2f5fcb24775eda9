import Verif.Base.C
import Verif.Pmf.Compress
import Mathlib.Data.Real.Basic
import Mathlib.Algebra.BigOperators.Group.List.Basic
import Mathlib.Algebra.Order.Floor.Semiring
import Mathlib.Data.Real.Archimedean
import Mathlib.Tactic.Ring
import Mathlib.Tactic.Linarith
import Mathlib.Tactic.FieldSimp
import Mathlib.Tactic.Positivity

/-! # C63, C64: drawing a row of a PMF

Exact arithmetic over the reals. -/

namespace Apop.Pmf

/-- The cumulative sums, model/apop_pmf.c:100-102: `acc` is `cdf->data[i-1]`. -/
noncomputable def cumul (acc : ℝ) : List ℝ → List ℝ
  | [] => []
  | w :: ws => (w + acc) :: cumul (w + acc) ws

/-- `setup_cmf`, model/apop_pmf.c:92-109; `none` is the error 'f' (total of zero or NaN). Reading element 0 of a vector of no elements is undefined. -/
noncomputable def setupCmf : List ℝ → Res (Option (List ℝ))
  | [] => .ub
  | w :: ws =>
    let c := w :: cumul w ws
    let last := c.getLast (by simp [c])
    if last = 0 then .ok none else .ok (some (c.map (· * (1 / last))))

/-- Where the search is. -/
structure SearchSt where
  top : ℕ
  bottom : ℕ
  cur : ℕ

/-- How the search ends: with a row, in undefined behaviour, or not within the steps given. -/
inductive Found where
  | row (i : ℕ)
  | ub
  | running
  deriving DecidableEq

/-- Step up, model/apop_pmf.c:159-163. `(bottom + top)/2.` is truncated when it is assigned. -/
def stepUp (s : SearchSt) : SearchSt :=
  if s.cur + 1 = s.top then { s with bottom := s.cur, cur := s.cur + 1 }
  else { s with bottom := s.cur, cur := (s.cur + s.top) / 2 }

/-- Step down, model/apop_pmf.c:164-169. -/
def stepDown (s : SearchSt) : SearchSt :=
  if s.cur = s.bottom + 1 then { s with top := s.cur, cur := s.cur - 1 }
  else { s with top := s.cur, cur := (s.bottom + s.cur) / 2 }

/-- What is read in a round of the loop: `cdf[current]`, and `cdf[current-1]`, which below element 0 is undefined. -/
def here (cdf : List ℝ) (cur : ℕ) : Res (ℝ × ℝ) := do
  let a ← rd cdf cur
  if cur = 0 then .ub
  let b ← rd cdf (cur - 1)
  return (a, b)

/-- One round after the loop's test has said to go on, model/apop_pmf.c:159-170. -/
noncomputable def turn (u a b : ℝ) (s : SearchSt) : SearchSt :=
  if a < u then stepUp s else if u ≤ b then stepDown s else s

/-- The `while` loop, model/apop_pmf.c:158-172, for so many rounds. (`cdf[current-1]` is not read if `cdf[current]` is below the draw; `here` reads both, which makes no difference for `current` above 0.) -/
noncomputable def search (cdf : List ℝ) (u : ℝ) : ℕ → SearchSt → Found
  | 0, _ => .running
  | n + 1, s =>
    match here cdf s.cur with
    | .ub => .ub
    | .ok (a, b) =>
      if u ≤ a ∧ b < u then .row s.cur
      else
        let s' := turn u a b s
        match cdf[0]? with
        | none => .ub
        | some c0 => if s'.cur = 0 ∧ u ≤ c0 then .row 0 else search cdf u n s'

/-- The start of the search, model/apop_pmf.c:144, 151-158, `size` being the number of weights: arrays of one or two elements are dealt with at once. -/
noncomputable def drawSized (size : ℕ) (cdf : List ℝ) (u : ℝ) (n : ℕ) : Found :=
  let top := size - 1
  if top / 2 = 0 then
    if size ≠ 1 then
      match cdf[0]? with
      | none => .ub
      | some c0 => if c0 < u then .row 1 else .row 0
    else .row 0
  else search cdf u n ⟨top, 0, top / 2⟩

/-- The search on a vector that is as long as the weights. -/
noncomputable abbrev drawRow (cdf : List ℝ) (u : ℝ) (n : ℕ) : Found := drawSized cdf.length cdf u n

/-- The row of an unweighted set, model/apop_pmf.c:142. -/
noncomputable def drawUnweighted (maxsize : ℕ) (u : ℝ) : ℕ := ⌊u * ((maxsize : ℝ) - 1)⌋₊

/-- Writing the drawn row to `out`, model/apop_pmf.c:180-186, by element numbers from 0. `i` is not put back to zero between the vector and the matrix. -/
def writeRow (r : Row) : List Dbl :=
  match r.vec, r.mat with
  | none, none => []
  | some v, none => [v]
  | none, some m => m
  | some v, some m => v :: m.drop 1

/-! ## Specification -/

/-- The share of the first `i` rows in the total weight. -/
noncomputable def cumShare (ws : List ℝ) (i : ℕ) : ℝ := (ws.take i).sum / ws.sum

/-! ## Proofs -/

theorem cumul_length (acc : ℝ) (ws : List ℝ) : (cumul acc ws).length = ws.length := by
  induction ws generalizing acc with
  | nil => rfl
  | cons w ws ih => simp [cumul, ih]

theorem cumul_get (acc : ℝ) (ws : List ℝ) (i : ℕ) (h : i < ws.length) : (cumul acc ws)[i]? = some (acc + (ws.take (i + 1)).sum) := by
  induction ws generalizing acc i with
  | nil => simp at h
  | cons w ws ih =>
    cases i with
    | zero => simp [cumul]; ring
    | succ i =>
      rw [cumul, List.getElem?_cons_succ, ih _ _ (by simpa using h)]
      simp only [List.take_succ_cons, List.sum_cons]
      congr 1; ring

theorem cumul_zero_cons (w : ℝ) (ws : List ℝ) : w :: cumul w ws = cumul 0 (w :: ws) := by simp [cumul]

theorem cumul_last (w : ℝ) (ws : List ℝ) : (w :: cumul w ws).getLast (by simp) = (w :: ws).sum := by
  rw [List.getLast_eq_getElem]
  have h : (w :: cumul w ws).length - 1 = ws.length := by simp [cumul_length]
  have := cumul_get 0 (w :: ws) ws.length (by simp)
  rw [← cumul_zero_cons] at this
  rw [List.getElem?_eq_some_iff] at this
  obtain ⟨hl, he⟩ := this
  simp only [h, he, zero_add]
  congr 1
  simp

/-- **C63 (cumulative mass).** For weights with a total other than zero, element i is the share of rows 0..i; otherwise the error 'f'. -/
theorem C63_cmf (ws : List ℝ) (h : ws ≠ []) :
    (ws.sum = 0 → setupCmf ws = .ok none) ∧
    (ws.sum ≠ 0 → ∃ c, setupCmf ws = .ok (some c) ∧ c.length = ws.length ∧ ∀ i < ws.length, c[i]? = some (cumShare ws (i + 1))) := by
  match ws, h with
  | w :: ws, _ =>
    constructor
    · intro h0
      unfold setupCmf
      simp only [cumul_last, h0, if_true]
    · intro h0
      refine ⟨(w :: cumul w ws).map (· * (1 / (w :: ws).sum)), ?_, by simp [cumul_length], ?_⟩
      · unfold setupCmf
        simp only [cumul_last, if_neg h0]
      · intro i hi
        rw [cumul_zero_cons, List.getElem?_map, cumul_get _ _ _ hi]
        simp only [Option.map_some, cumShare, zero_add]
        congr 1; ring

/-- The rows before `bottom + 1` are below the draw; the row at `top` is not. -/
structure Inv (cdf : List ℝ) (u : ℝ) (s : SearchSt) : Prop where
  bt : s.bottom ≤ s.cur ∧ s.cur ≤ s.top
  pos : 0 < s.cur
  top_lt : s.top < cdf.length
  top_ge : ∀ t, cdf[s.top]? = some t → u ≤ t
  bot : 0 < s.bottom → ∀ t, cdf[s.bottom]? = some t → t < u
  mid : s.cur = s.top → ∀ t, cdf[s.cur - 1]? = some t → t < u
  low : s.bottom < s.cur

theorem search_ok {cdf : List ℝ} {u : ℝ} : ∀ (n : ℕ) (s : SearchSt), Inv cdf u s → s.top - s.bottom ≤ n →
    ∃ i a, search cdf u (n + 1) s = .row i ∧ cdf[i]? = some a ∧ u ≤ a ∧ (0 < i → ∃ b, cdf[i - 1]? = some b ∧ b < u) := by
  intro n
  induction n with
  | zero =>
    intro s hI hn
    exfalso
    have := hI.bt; have := hI.low
    omega
  | succ n ih =>
    intro s hI hn
    have hcl : s.cur < cdf.length := lt_of_le_of_lt hI.bt.2 hI.top_lt
    have ha : cdf[s.cur]? = some cdf[s.cur] := List.getElem?_eq_getElem hcl
    have hb : cdf[s.cur - 1]? = some (cdf[s.cur - 1]'(by omega)) := List.getElem?_eq_getElem (by omega)
    have h0 : cdf[0]? = some (cdf[0]'(by omega)) := List.getElem?_eq_getElem (by omega)
    generalize cdf[s.cur] = a at ha
    generalize cdf[s.cur - 1]'(by omega) = b at hb
    generalize cdf[0]'(by omega) = c0 at h0
    have hhere : here cdf s.cur = .ok (a, b) := by
      simp [here, rd, ha, hb, hI.pos.ne']
    rw [search, hhere]
    simp only [h0]
    by_cases hd : u ≤ a ∧ b < u
    · rw [if_pos hd]
      exact ⟨s.cur, a, rfl, ha, hd.1, fun _ => ⟨b, hb, hd.2⟩⟩
    · rw [if_neg hd]
      have hnt : s.cur ≠ s.top := by
        intro he
        exact hd ⟨hI.top_ge a (he ▸ ha), hI.mid he b hb⟩
      have hbt := hI.bt
      have hlow := hI.low
      by_cases hau : a < u
      · -- step up
        have hturn : turn u a b s = stepUp s := by simp [turn, hau]
        rw [hturn]
        by_cases h1 : s.cur + 1 = s.top
        · have e : stepUp s = ⟨s.top, s.cur, s.cur + 1⟩ := by simp [stepUp, h1]
          rw [e]
          simp only [Nat.add_eq_zero_iff, one_ne_zero, and_false, false_and, if_false]
          apply ih
          · exact ⟨by simp; omega, by simp, hI.top_lt, hI.top_ge, fun _ t ht => by rw [ha] at ht; cases ht; exact hau,
              fun _ t ht => by simp only [Nat.add_sub_cancel] at ht; rw [ha] at ht; cases ht; exact hau, by simp⟩
          · simp only; omega
        · have e : stepUp s = ⟨s.top, s.cur, (s.cur + s.top) / 2⟩ := by simp [stepUp, h1]
          rw [e]
          have hm : s.cur < (s.cur + s.top) / 2 ∧ (s.cur + s.top) / 2 < s.top := by omega
          rw [if_neg (by simp only; omega)]
          apply ih
          · exact ⟨by simp only; omega, by simp only; omega, hI.top_lt, hI.top_ge, fun _ t ht => by rw [ha] at ht; cases ht; exact hau,
              fun h => by simp only at h; omega, by simp only; omega⟩
          · simp only; omega
      · have hua : u ≤ a := not_lt.1 hau
        have hub : u ≤ b := by
          by_contra hc
          exact hd ⟨hua, not_le.1 hc⟩
        have hturn : turn u a b s = stepDown s := by simp [turn, hau, hub]
        rw [hturn]
        by_cases h1 : s.cur = s.bottom + 1
        · have e : stepDown s = ⟨s.cur, s.bottom, s.cur - 1⟩ := by simp [stepDown, h1]
          rw [e]
          by_cases hb0 : s.bottom = 0
          · have hc1 : s.cur - 1 = 0 := by omega
            rw [hc1, h0, Option.some.injEq] at hb
            subst hb
            simp only [hc1, true_and, hub, if_true]
            exact ⟨0, c0, rfl, h0, hub, fun h => absurd h (lt_irrefl _)⟩
          · exfalso
            have := hI.bot (by omega) b (by rw [show s.bottom = s.cur - 1 by omega]; exact hb)
            linarith
        · have e : stepDown s = ⟨s.cur, s.bottom, (s.bottom + s.cur) / 2⟩ := by simp [stepDown, h1]
          rw [e]
          have hm : s.bottom < (s.bottom + s.cur) / 2 ∧ (s.bottom + s.cur) / 2 < s.cur := by omega
          rw [if_neg (by simp only; omega)]
          apply ih
          · exact ⟨by simp only; omega, by simp only; omega, hcl, fun t ht => by simp only at ht; rw [ha] at ht; cases ht; exact hua, hI.bot,
              fun h => by simp only at h; omega, by simp only; omega⟩
          · simp only; omega

/-- What the loop needs is only that the last element is not below the draw. -/
theorem drawRow_ok {cdf : List ℝ} {u : ℝ} (hne : cdf ≠ []) (hlast : ∀ t, cdf[cdf.length - 1]? = some t → u ≤ t) :
    ∃ i a, drawRow cdf u (cdf.length + 1) = .row i ∧ cdf[i]? = some a ∧ u ≤ a ∧ (0 < i → ∃ b, cdf[i - 1]? = some b ∧ b < u) := by
  have hl : 0 < cdf.length := List.length_pos_iff.2 hne
  have h0 : cdf[0]? = some (cdf[0]'hl) := List.getElem?_eq_getElem hl
  generalize cdf[0]'hl = c0 at h0
  unfold drawRow drawSized
  simp only [h0]
  by_cases hs : (cdf.length - 1) / 2 = 0
  · rw [if_pos hs]
    by_cases h1 : cdf.length ≠ 1
    · rw [if_pos h1]
      have h2 : cdf.length = 2 := by omega
      by_cases hc : c0 < u
      · rw [if_pos hc]
        have hg : cdf[1]? = some (cdf[1]'(by omega)) := List.getElem?_eq_getElem (by omega)
        exact ⟨1, _, rfl, hg, hlast _ (show cdf[cdf.length - 1]? = _ by rw [show cdf.length - 1 = 1 by omega]; exact hg), fun _ => ⟨c0, h0, hc⟩⟩
      · rw [if_neg hc]
        exact ⟨0, c0, rfl, h0, not_lt.1 hc, fun h => absurd h (lt_irrefl _)⟩
    · rw [if_neg h1]
      have h2 : cdf.length - 1 = 0 := by omega
      exact ⟨0, c0, rfl, h0, hlast c0 (by rw [h2]; exact h0), fun h => absurd h (lt_irrefl _)⟩
  · rw [if_neg hs]
    apply search_ok
    · exact ⟨by simp only; omega, by simp only; omega, by simp only; omega, hlast, fun h => by simp at h,
        fun h => by simp only at h; omega, by simp only; omega⟩
    · simp only; omega

theorem cumShare_mono {ws : List ℝ} (hw : ∀ w ∈ ws, 0 ≤ w) (hs : 0 < ws.sum) {i j : ℕ} (h : i ≤ j) : cumShare ws i ≤ cumShare ws j := by
  unfold cumShare
  apply div_le_div_of_nonneg_right _ hs.le
  have : (ws.take j).sum = (ws.take i).sum + ((ws.take j).drop i).sum := by
    conv_lhs => rw [← List.take_append_drop i (ws.take j)]
    rw [List.sum_append, List.take_take, min_eq_left h]
  rw [this]
  have : 0 ≤ ((ws.take j).drop i).sum := List.sum_nonneg (fun w hw' => hw w (List.mem_of_mem_take (List.mem_of_mem_drop hw')))
  linarith

theorem cumShare_last {ws : List ℝ} (hs : ws.sum ≠ 0) : cumShare ws ws.length = 1 := by
  simp [cumShare, hs]

/-- **C63 (the row drawn).** Weights none of which is negative and not all zero, any draw `u` of the uniform in [0, 1): the search ends, reads nothing outside the vector, and the row it gives is the only one whose share of the
cumulative mass contains `u`: `F(i-1) < u ≤ F(i)` (for a `u` of exactly zero, row 0). -/
theorem C63_row (ws : List ℝ) (hw : ∀ w ∈ ws, 0 ≤ w) (hs : 0 < ws.sum) (u : ℝ) (hu0 : 0 ≤ u) (hu1 : u < 1) :
    ∃ c i, setupCmf ws = .ok (some c) ∧ drawRow c u (ws.length + 1) = .row i ∧ i < ws.length ∧
      u ≤ cumShare ws (i + 1) ∧ (u = 0 → i = 0) ∧ (0 < u → cumShare ws i < u ∧ 0 < ws.getD i 0 ∧ ∀ j < ws.length, cumShare ws j < u → u ≤ cumShare ws (j + 1) → j = i) := by
  have hne : ws ≠ [] := by rintro rfl; simp at hs
  obtain ⟨c, hc, hlen, hget⟩ := (C63_cmf ws hne).2 hs.ne'
  have hl : 0 < ws.length := List.length_pos_iff.2 hne
  obtain ⟨i, a, hi, hia, hua, hib⟩ := drawRow_ok (cdf := c) (u := u) (by rintro rfl; simp at hlen; omega) (by
    intro t ht
    rw [hlen, hget _ (by omega), show ws.length - 1 + 1 = ws.length by omega, cumShare_last hs.ne'] at ht
    cases ht; exact hu1.le)
  have hil : i < ws.length := by
    rw [← hlen]
    by_contra h
    rw [List.getElem?_eq_none (by omega)] at hia
    cases hia
  rw [hget i hil] at hia
  cases hia
  refine ⟨c, i, hc, hlen ▸ hi, hil, hua, ?_, ?_⟩
  · intro h0
    by_contra hi0
    obtain ⟨b, hb, hbu⟩ := hib (Nat.pos_of_ne_zero hi0)
    rw [hget (i - 1) (by omega), Option.some.injEq] at hb
    have : 0 ≤ cumShare ws (i - 1 + 1) := div_nonneg (List.sum_nonneg (fun w hw' => hw w (List.mem_of_mem_take hw'))) hs.le
    linarith
  · intro hup
    have hlow : cumShare ws i < u := by
      by_cases hi0 : i = 0
      · subst hi0; simpa [cumShare] using hup
      · obtain ⟨b, hb, hbu⟩ := hib (Nat.pos_of_ne_zero hi0)
        rw [hget (i - 1) (by omega), Option.some.injEq, show i - 1 + 1 = i by omega] at hb
        rw [hb]; exact hbu
    refine ⟨hlow, ?_, ?_⟩
    · have h1 : cumShare ws i < cumShare ws (i + 1) := lt_of_lt_of_le hlow hua
      unfold cumShare at h1
      have h2 := (div_lt_div_iff_of_pos_right hs).1 h1
      rw [List.sum_take_succ _ _ hil] at h2
      rw [show ws.getD i 0 = ws[i] by simp [hil]]
      linarith
    · intro j hj h1 h2
      rcases lt_trichotomy j i with h | h | h
      · have := cumShare_mono hw hs (show j + 1 ≤ i by omega); linarith
      · exact h
      · have := cumShare_mono hw hs (show i + 1 ≤ j by omega); linarith

/-- **C63 (probability).** The draws that give row `i` are, but for zero, those of the interval `(F(i-1), F(i)]`, whose length is the row's share of the weight. -/
theorem C63_interval (ws : List ℝ) (hw : ∀ w ∈ ws, 0 ≤ w) (hs : 0 < ws.sum) (i : ℕ) (hi : i < ws.length) :
    ∃ c, setupCmf ws = .ok (some c) ∧ (∀ u, 0 < u → u < 1 → (drawRow c u (ws.length + 1) = .row i ↔ cumShare ws i < u ∧ u ≤ cumShare ws (i + 1))) ∧
      cumShare ws (i + 1) - cumShare ws i = ws.getD i 0 / ws.sum ∧ 0 ≤ cumShare ws i ∧ cumShare ws (i + 1) ≤ 1 := by
  have hne : ws ≠ [] := by rintro rfl; simp at hs
  obtain ⟨c, hc, -, -⟩ := (C63_cmf ws hne).2 hs.ne'
  refine ⟨c, hc, ?_, ?_, ?_, ?_⟩
  · intro u h0 h1
    obtain ⟨c', j, hc', hj, hjl, hu, -, hp⟩ := C63_row ws hw hs u h0.le h1
    rw [hc] at hc'
    cases hc'
    obtain ⟨h2, -, huniq⟩ := hp h0
    rw [hj]
    constructor
    · intro h; cases h; exact ⟨h2, hu⟩
    · intro h; rw [huniq i hi h.1 h.2]
  · unfold cumShare
    rw [List.sum_take_succ _ _ hi, show ws.getD i 0 = ws[i] by simp [hi]]
    ring
  · exact div_nonneg (List.sum_nonneg (fun w hw' => hw w (List.mem_of_mem_take hw'))) hs.le
  · rw [← cumShare_last hs.ne']
    exact cumShare_mono hw hs (by omega)

/-- **C63 (ends).** The search ends whatever the weights, negative ones included, if only their total is not zero, and never reads outside the vector. -/
theorem C63_ends (ws : List ℝ) (hs : ws.sum ≠ 0) (u : ℝ) (hu1 : u < 1) :
    ∃ c i, setupCmf ws = .ok (some c) ∧ drawRow c u (ws.length + 1) = .row i ∧ i < ws.length := by
  have hne : ws ≠ [] := by rintro rfl; simp at hs
  obtain ⟨c, hc, hlen, hget⟩ := (C63_cmf ws hne).2 hs
  have hl : 0 < ws.length := List.length_pos_iff.2 hne
  obtain ⟨i, a, hi, hia, -, -⟩ := drawRow_ok (cdf := c) (u := u) (by rintro rfl; simp at hlen; omega) (by
    intro t ht
    rw [hlen, hget _ (by omega), show ws.length - 1 + 1 = ws.length by omega, cumShare_last hs] at ht
    cases ht; exact hu1.le)
  refine ⟨c, i, hc, hlen ▸ hi, ?_⟩
  rw [← hlen]
  by_contra h
  rw [List.getElem?_eq_none (by omega)] at hia
  cases hia

example : ([1, 2, 3] : List ℝ).sum > 0 ∧ ∀ w ∈ ([1, 2, 3] : List ℝ), 0 ≤ w := by
  constructor
  · norm_num
  · intro w hw; simp at hw; rcases hw with rfl | rfl | rfl <;> norm_num

/-- A `u` of exactly zero, which the generators do give, gives row 0 even if its weight is zero. -/
theorem C63_zero_draw (ws : List ℝ) (hw : ∀ w ∈ ws, 0 ≤ w) (hs : 0 < ws.sum) : ∃ c, setupCmf ws = .ok (some c) ∧ drawRow c 0 (ws.length + 1) = .row 0 := by
  obtain ⟨c, i, hc, hi, -, -, h0, -⟩ := C63_row ws hw hs 0 (le_refl _) zero_lt_one
  exact ⟨c, hc, h0 rfl ▸ hi⟩

/-- **C63 (what is written).** For a set with only a vector or only a matrix, the drawn row's numbers. -/
theorem C63_written (r : Row) :
    (∀ v, r.vec = some v → r.mat = none → writeRow r = [v]) ∧ (∀ m, r.vec = none → r.mat = some m → writeRow r = m) := by
  constructor
  · intro v h1 h2; simp [writeRow, h1, h2]
  · intro m h1 h2; simp [writeRow, h1, h2]

/-- With both, the matrix's column 0 is lost: the vector's element takes its place. (`dsize` is the matrix's width, so there is no room for the vector's element as well.) -/
theorem C63_vector_and_matrix (r : Row) (v x : Dbl) (m : List Dbl) (h1 : r.vec = some v) (h2 : r.mat = some (x :: m)) : writeRow r = v :: m := by
  simp [writeRow, h1, h2]

/-- **C64 (rows in range).** Without weights, the row drawn exists. -/
theorem C64_in_range (n : ℕ) (hn : 0 < n) (u : ℝ) (h0 : 0 ≤ u) (h1 : u < 1) : drawUnweighted n u < n := by
  unfold drawUnweighted
  have hn1 : (1 : ℝ) ≤ n := by exact_mod_cast hn
  rw [Nat.floor_lt (mul_nonneg h0 (by linarith))]
  nlinarith

/-- **C64 is false.** Documented: without weights all rows are equiprobable. The last row of two or more is never drawn. -/
theorem C64_last_never (n : ℕ) (hn : 2 ≤ n) (u : ℝ) (h0 : 0 ≤ u) (h1 : u < 1) : drawUnweighted n u ≠ n - 1 := by
  unfold drawUnweighted
  have hn1 : (2 : ℝ) ≤ n := by exact_mod_cast hn
  have hlt : ⌊u * ((n : ℝ) - 1)⌋₊ < n - 1 := by
    rw [Nat.floor_lt (mul_nonneg h0 (by linarith)), Nat.cast_sub (by omega), Nat.cast_one]
    nlinarith
  exact hlt.ne

/-- **C64 (the others).** The rows before the last share the draws equally: row `i` is drawn on an interval of length 1/(n-1). -/
theorem C64_others (n : ℕ) (hn : 2 ≤ n) (i : ℕ) (u : ℝ) (h0 : 0 ≤ u) :
    drawUnweighted n u = i ↔ (i : ℝ) / ((n : ℝ) - 1) ≤ u ∧ u < ((i : ℝ) + 1) / ((n : ℝ) - 1) := by
  have hn1 : (2 : ℝ) ≤ n := by exact_mod_cast hn
  have hp : (0 : ℝ) < (n : ℝ) - 1 := by linarith
  unfold drawUnweighted
  rw [Nat.floor_eq_iff (mul_nonneg h0 hp.le), div_le_iff₀ hp, lt_div_iff₀ hp]

end Apop.Pmf
