import Verif.Pmf.Prob
import Verif.Hist.Smirnov
import Verif.Hist.Kolmogorov

/-! # C96: the Kolmogorov–Smirnov test -/

namespace Apop.Ks
open Apop.Pmf

/-! ## The model (exact arithmetic) -/

/-- `GSL_MAX(largest_diff, x)`; `none` is the negative infinity it starts from, apop_hist.m4.c:248. -/
noncomputable def maxWith (l : Option ℝ) (x : ℝ) : Option ℝ :=
  match l with
  | none => some x
  | some y => some (max y x)

/-- The loops, apop_hist.m4.c:250-254 and 257-261: the rows with what is added to `sum` for each, the sum so far and the largest difference so far; `G` is the CDF of the second model. -/
noncomputable def ksLoop {ρ : Type} (G : ρ → ℝ) : List (ρ × ℝ) → ℝ → Option ℝ → Option ℝ
  | [], _, l => l
  | (r, w) :: t, s, l => ksLoop G t (s + w) (maxWith l |s + w - G r|)

/-- The largest difference if the second model is no PMF, lines 248-254; simplified in that a row's CDF is a real number. -/
noncomputable def distanceOne {ρ : Type} (G : ρ → ℝ) (d : List (ρ × ℝ)) : Option ℝ := ksLoop G d 0 none

/-- The same if it is, lines 248-262. -/
noncomputable def distanceTwo {ρ : Type} (G : ρ → ℝ) (d1 d2 : List (ρ × ℝ)) : Option ℝ := ksLoop G d2 0 (ksLoop G d1 0 none)

/-- What is added to `sum` for each row, lines 252 and 259, if there are no weights. -/
noncomputable def even {ρ : Type} (rows : List ρ) : List (ρ × ℝ) := rows.map fun r => (r, 1 / (rows.length : ℝ))

/-- The p value and the confidence given, lines 266-269. -/
noncomputable def pOne (n : ℕ) (d : ℝ) : Option (ℝ × ℝ) := (Kolmogorov.kolmogorov2x n d).map fun ps => (1 - ps, ps)

/-- The same for two PMFs. -/
noncomputable def pTwo (n1 n2 : ℕ) (d : ℝ) : ℝ × ℝ := (1 - Smirnov.psmirnov2x d n1 n2, Smirnov.psmirnov2x d n1 n2)

/-! ## Specification -/

/-- The distribution function of weighted observations: the weight of those up to `x`. -/
noncomputable def F (d : List (ℝ × ℝ)) (x : ℝ) : ℝ := ((d.filter fun p => p.1 ≤ x).map Prod.snd).sum

/-- `D` is the largest of the numbers `f a`, for `a` in the list. -/
def IsMax {α : Type} (f : α → ℝ) (l : List α) (D : ℝ) : Prop := (∃ a ∈ l, f a = D) ∧ ∀ a ∈ l, f a ≤ D

/-- Sorted, without ties. -/
def Sorted (d : List (ℝ × ℝ)) : Prop := d.Pairwise fun a b => a.1 < b.1

/-! ## Proofs -/

theorem ksLoop_mono {ρ : Type} (G : ρ → ℝ) : ∀ (d : List (ρ × ℝ)) (s y : ℝ), ∃ D, ksLoop G d s (some y) = some D ∧ y ≤ D
  | [], _, y => ⟨y, rfl, le_rfl⟩
  | (r, w) :: t, s, y => by
    obtain ⟨D, h, hle⟩ := ksLoop_mono G t (s + w) (max y |s + w - G r|)
    exact ⟨D, h, le_trans (le_max_left _ _) hle⟩

/-- The sums of the first elements, each with its row. -/
noncomputable def sums {ρ : Type} : List (ρ × ℝ) → ℝ → List (ρ × ℝ)
  | [], _ => []
  | (r, w) :: t, s => (r, s + w) :: sums t (s + w)

theorem ksLoop_some {ρ : Type} (G : ρ → ℝ) : ∀ (d : List (ρ × ℝ)) (s y : ℝ), ∃ D, ksLoop G d s (some y) = some D ∧
    (D = y ∨ ∃ p ∈ sums d s, |p.2 - G p.1| = D) ∧ y ≤ D ∧ ∀ p ∈ sums d s, |p.2 - G p.1| ≤ D
  | [], _, y => ⟨y, rfl, .inl rfl, le_rfl, by simp [sums]⟩
  | (r, w) :: t, s, y => by
    obtain ⟨D, h, h1, h2, h3⟩ := ksLoop_some G t (s + w) (max y |s + w - G r|)
    refine ⟨D, h, ?_, le_trans (le_max_left _ _) h2, ?_⟩
    · rcases h1 with h1 | ⟨p, hp, h1⟩
      · rcases max_choice y |s + w - G r| with hm | hm
        · exact .inl (by rw [h1, hm])
        · exact .inr ⟨(r, s + w), by simp [sums], by rw [h1, hm]⟩
      · exact .inr ⟨p, by simp [sums, hp], h1⟩
    · intro p hp
      simp only [sums, List.mem_cons] at hp
      rcases hp with rfl | hp
      · exact le_trans (le_max_right _ _) h2
      · exact h3 p hp

theorem ksLoop_none {ρ : Type} (G : ρ → ℝ) (d : List (ρ × ℝ)) (hd : d ≠ []) (s : ℝ) : ∃ D, ksLoop G d s none = some D ∧ IsMax (fun p => |p.2 - G p.1|) (sums d s) D := by
  match d, hd with
  | (r, w) :: t, _ =>
    obtain ⟨D, h, h1, h2, h3⟩ := ksLoop_some G t (s + w) |s + w - G r|
    refine ⟨D, h, ?_, ?_⟩
    · rcases h1 with h1 | ⟨p, hp, h1⟩
      · exact ⟨(r, s + w), by simp [sums], h1.symm⟩
      · exact ⟨p, by simp [sums, hp], h1⟩
    · intro p hp
      simp only [sums, List.mem_cons] at hp
      rcases hp with rfl | hp
      · exact h2
      · exact h3 p hp

theorem sums_sorted : ∀ (d : List (ℝ × ℝ)) (s : ℝ) (_ : Sorted d) (p : ℝ × ℝ), p ∈ sums d s → p.2 = s + F d p.1
  | [], _, _, p, hp => by simp [sums] at hp
  | (x, w) :: t, s, hs, p, hp => by
    unfold Sorted at hs
    rw [List.pairwise_cons] at hs
    simp only [sums, List.mem_cons] at hp
    rcases hp with rfl | hp
    · have : t.filter (fun q => decide (q.1 ≤ x)) = [] := by
        rw [List.filter_eq_nil_iff]
        intro q hq
        simpa using hs.1 q hq
      simp [F, this]
    · have ih := sums_sorted t (s + w) hs.2 p hp
      have hx : x ≤ p.1 := by
        have : ∀ (l : List (ℝ × ℝ)) (s : ℝ), p ∈ sums l s → ∃ q ∈ l, q.1 = p.1 := by
          intro l
          induction l with
          | nil => intro s h; simp [sums] at h
          | cons a l ihl =>
            intro s h
            obtain ⟨a, b⟩ := a
            simp only [sums, List.mem_cons] at h
            rcases h with rfl | h
            · exact ⟨(a, b), by simp, rfl⟩
            · obtain ⟨q, hq, he⟩ := ihl _ h
              exact ⟨q, by simp [hq], he⟩
        obtain ⟨q, hq, he⟩ := this t _ hp
        rw [← he]
        exact (hs.1 q hq).le
      rw [ih]
      simp [F, hx]
      ring

theorem mem_sums (G : ℝ → ℝ) : ∀ (d : List (ℝ × ℝ)) (s : ℝ) (q : ℝ × ℝ), q ∈ d → ∃ p ∈ sums d s, p.1 = q.1
  | [], _, _, hq => by simp at hq
  | (x, w) :: t, s, q, hq => by
    simp only [List.mem_cons] at hq
    rcases hq with rfl | hq
    · exact ⟨(x, s + w), by simp [sums], rfl⟩
    · obtain ⟨p, hp, he⟩ := mem_sums G t (s + w) q hq
      exact ⟨p, by simp [sums, hp], he⟩

theorem sums_mem : ∀ (d : List (ℝ × ℝ)) (s : ℝ) (p : ℝ × ℝ), p ∈ sums d s → ∃ q ∈ d, q.1 = p.1
  | [], _, _, hp => by simp [sums] at hp
  | (x, w) :: t, s, p, hp => by
    simp only [sums, List.mem_cons] at hp
    rcases hp with rfl | hp
    · exact ⟨(x, w), by simp, rfl⟩
    · obtain ⟨q, hq, he⟩ := sums_mem t (s + w) p hp
      exact ⟨q, by simp [hq], he⟩

/-- **C96 (at the observations).** For a sorted sample without ties, of any size and with any weights, and any model that is no PMF: the distance given is the largest, over the observations, of the difference at the observation of the sample's distribution function and the model's. -/
theorem C96_at_observations (G : ℝ → ℝ) (d : List (ℝ × ℝ)) (hd : d ≠ []) (hs : Sorted d) :
    ∃ D, distanceOne G d = some D ∧ IsMax (fun p => |F d p.1 - G p.1|) d D := by
  obtain ⟨D, h, ⟨p, hp, h1⟩, h2⟩ := ksLoop_none G d hd 0
  refine ⟨D, h, ?_, ?_⟩
  · obtain ⟨q, hq, he⟩ := sums_mem d 0 p hp
    refine ⟨q, hq, ?_⟩
    simp only
    simp only at h1
    rw [he, ← h1, sums_sorted d 0 hs p hp, zero_add]
  · intro q hq
    obtain ⟨p, hp, he⟩ := mem_sums G d 0 q hq
    have := h2 p hp
    simp only at this
    rw [sums_sorted d 0 hs p hp, zero_add, he] at this
    exact this

theorem F_filter (d : List (ℝ × ℝ)) (x : ℝ) (P : ℝ) (h : ∀ p ∈ d, p.1 ≤ x ↔ p.1 ≤ P) : F d x = F d P := by
  unfold F
  congr 2
  apply List.filter_congr
  intro p hp
  simpa using h p hp

/-- **C96 (between).** So if the weights sum to one, what is given is no more than the largest difference anywhere, the test's statistic, and no less than it less the largest weight: for any model with a nondecreasing distribution function, between 0 and 1. -/
theorem C96_one_sample (G : ℝ → ℝ) (hG : Monotone G) (h0 : ∀ x, 0 ≤ G x) (h1 : ∀ x, G x ≤ 1) (d : List (ℝ × ℝ)) (hd : d ≠ []) (hs : Sorted d)
    (hw : ∀ p ∈ d, 0 ≤ p.2) (hsum : (d.map Prod.snd).sum = 1) (wmax : ℝ) (hmax : ∀ p ∈ d, p.2 ≤ wmax) :
    ∃ D, distanceOne G d = some D ∧ (∃ x, |F d x - G x| = D) ∧ ∀ x, |F d x - G x| ≤ D + wmax := by
  obtain ⟨D, h, ⟨q, hq, he⟩, h2⟩ := C96_at_observations G d hd hs
  refine ⟨D, h, ⟨q.1, he⟩, ?_⟩
  intro x
  have hwm : 0 ≤ wmax := le_trans (hw q hq) (hmax q hq)
  have hD : 0 ≤ D := by rw [← he]; exact abs_nonneg _
  -- F at x from above: the last observation up to x; from below: the first after it
  have upper : F d x - G x ≤ D := by
    by_cases hex : ∃ p ∈ d, p.1 ≤ x
    · obtain ⟨p, hp, hpx, hlast⟩ : ∃ p ∈ d, p.1 ≤ x ∧ ∀ p' ∈ d, p'.1 ≤ x → p'.1 ≤ p.1 := by
        clear h2 he hq h hsum hmax hw hs hd
        induction d with
        | nil => obtain ⟨p, hp, _⟩ := hex; simp at hp
        | cons a t ih =>
          by_cases ht : ∃ p ∈ t, p.1 ≤ x
          · obtain ⟨p, hp, hpx, hl⟩ := ih ht
            by_cases ha : a.1 ≤ x ∧ p.1 ≤ a.1
            · refine ⟨a, by simp, ha.1, ?_⟩
              intro p' hp' hx'
              simp only [List.mem_cons] at hp'
              rcases hp' with rfl | hp'
              · exact le_rfl
              · exact le_trans (hl p' hp' hx') ha.2
            · refine ⟨p, by simp [hp], hpx, ?_⟩
              intro p' hp' hx'
              simp only [List.mem_cons] at hp'
              rcases hp' with rfl | hp'
              · by_contra hc
                exact ha ⟨hx', (not_le.1 hc).le⟩
              · exact hl p' hp' hx'
          · obtain ⟨p, hp, hpx⟩ := hex
            simp only [List.mem_cons] at hp
            rcases hp with rfl | hp
            · refine ⟨p, by simp, hpx, ?_⟩
              intro p' hp' hx'
              simp only [List.mem_cons] at hp'
              rcases hp' with rfl | hp'
              · exact le_rfl
              · exact absurd ⟨p', hp', hx'⟩ ht
            · exact absurd ⟨p, hp, hpx⟩ ht
      have hF : F d x = F d p.1 := F_filter d x p.1 fun p' hp' => ⟨hlast p' hp', fun h => le_trans h hpx⟩
      have := h2 p hp
      have hg := hG hpx
      have := (abs_le.1 this).2
      rw [hF]
      linarith
    · have : d.filter (fun p => decide (p.1 ≤ x)) = [] := by
        rw [List.filter_eq_nil_iff]
        intro p hp
        have := fun h => hex ⟨p, hp, h⟩
        simpa using this
      have hF : F d x = 0 := by unfold F; rw [this]; rfl
      have := h0 x
      rw [hF]; linarith
  have lower : G x - F d x ≤ D + wmax := by
    by_cases hex : ∃ p ∈ d, x < p.1
    · obtain ⟨p, t, u, hsplit, hpx, hbefore⟩ : ∃ p t u, d = t ++ p :: u ∧ x < p.1 ∧ ∀ p' ∈ t, p'.1 ≤ x := by
        clear h2 he hq h hsum hmax hw hs hd upper
        induction d with
        | nil => obtain ⟨p, hp, _⟩ := hex; simp at hp
        | cons a t ih =>
          by_cases ha : x < a.1
          · exact ⟨a, [], t, rfl, ha, by simp⟩
          · obtain ⟨p, hp, hpx⟩ := hex
            simp only [List.mem_cons] at hp
            rcases hp with rfl | hp
            · exact absurd hpx ha
            · obtain ⟨p, t', u, h1, h2, h3⟩ := ih ⟨p, hp, hpx⟩
              refine ⟨p, a :: t', u, by rw [h1]; rfl, h2, ?_⟩
              intro p' hp'
              simp only [List.mem_cons] at hp'
              rcases hp' with rfl | hp'
              · exact not_lt.1 ha
              · exact h3 p' hp'
      have hpd : p ∈ d := by rw [hsplit]; simp
      have hafter : ∀ p' ∈ u, p.1 < p'.1 := by
        unfold Sorted at hs
        rw [hsplit, List.pairwise_append] at hs
        exact (List.pairwise_cons.1 hs.2.1).1
      have f1 : ∀ y, p.1 ≤ y → (∀ p' ∈ u, y < p'.1) → F d y = (t.map Prod.snd).sum + p.2 := by
        intro y hy hu
        have ht : t.filter (fun q => decide (q.1 ≤ y)) = t := by
          rw [List.filter_eq_self]
          intro q hq
          have := hbefore q hq
          simpa using by linarith
        have hu' : u.filter (fun q => decide (q.1 ≤ y)) = [] := by
          rw [List.filter_eq_nil_iff]
          intro q hq
          simpa using hu q hq
        unfold F
        rw [hsplit, List.filter_append, ht, List.filter_cons, hu']
        simp [hy]
      have f2 : F d x = (t.map Prod.snd).sum := by
        have ht : t.filter (fun q => decide (q.1 ≤ x)) = t := by
          rw [List.filter_eq_self]
          intro q hq
          simpa using hbefore q hq
        have hu' : u.filter (fun q => decide (q.1 ≤ x)) = [] := by
          rw [List.filter_eq_nil_iff]
          intro q hq
          have := hafter q hq
          simpa using by linarith
        unfold F
        rw [hsplit, List.filter_append, ht, List.filter_cons, hu']
        simp [not_le.2 hpx]
      have hp := (abs_le.1 (h2 p hpd)).1
      rw [f1 p.1 le_rfl hafter] at hp
      have := hG hpx.le
      have := hmax p hpd
      rw [f2]
      linarith
    · have : d.filter (fun p => decide (p.1 ≤ x)) = d := by
        rw [List.filter_eq_self]
        intro p hp
        have := fun h => hex ⟨p, hp, h⟩
        simpa using this
      have hF : F d x = 1 := by unfold F; rw [this]; exact hsum
      have := h1 x
      rw [hF]; linarith
  rw [abs_le]
  constructor <;> linarith

/-- **C96 (the statistic) fails**: the sample's distribution function jumps at an observation, and only the upper end is looked at. One observation, at 9/10, and a uniform distribution: the difference comes as near as wanted to 9/10, what is given is 1/10. -/
theorem C96_below_refuted : distanceOne (fun x => max 0 (min x 1)) [((9 / 10 : ℝ), 1)] = some (1 / 10) ∧
    ∀ ε : ℝ, 0 < ε → ε < 9 / 10 → |F [((9 / 10 : ℝ), 1)] (9 / 10 - ε) - max 0 (min (9 / 10 - ε) 1)| = 9 / 10 - ε := by
  constructor
  · norm_num [distanceOne, ksLoop, maxWith]
  · intro ε h0 h1
    have : F [((9 / 10 : ℝ), 1)] (9 / 10 - ε) = 0 := by simp [F, h0]
    rw [this, min_eq_left (by linarith), max_eq_right (by linarith), zero_sub, abs_neg, abs_of_pos (by linarith)]

/-- Nonvacuity: two observations, at 1/4 and 3/4, against a uniform distribution. -/
example : distanceOne (fun x => max 0 (min x 1)) [((1 / 4 : ℝ), 1 / 2), (3 / 4, 1 / 2)] = some (1 / 4) := by
  norm_num [distanceOne, ksLoop, maxWith]

/-- What the CDF of a PMF without weights gives, as the code has it (C66). -/
noncomputable def cdfOf (rows : List Row) (r : Row) : ℝ :=
  match pmfCdf ⟨rows, none⟩ r with
  | .ok (some x) => x
  | _ => 0

theorem cdfOf_absent (rows : List Row) (r : Row) (h : r ∉ rows) : cdfOf rows r = 0 := by
  simp [cdfOf, C66_absent ⟨rows, none⟩ r h]

theorem sums_even {ρ : Type} (c : ℝ) : ∀ (rows : List ρ) (s : ℝ) (i : ℕ) (r : ρ), rows[i]? = some r → (r, s + (i + 1) * c) ∈ sums (rows.map fun r => (r, c)) s
  | [], _, _, _, h => by simp at h
  | a :: t, s, 0, r, h => by
    simp only [List.getElem?_cons_zero, Option.some.injEq] at h
    subst h
    simp [sums]
  | a :: t, s, i + 1, r, h => by
    simp only [List.getElem?_cons_succ] at h
    have := sums_even c t (s + c) i r h
    simp only [List.map_cons, sums, List.mem_cons]
    right
    convert this using 2
    push_cast; ring

theorem mem_sums_even {ρ : Type} (c : ℝ) : ∀ (rows : List ρ) (s : ℝ) (p : ρ × ℝ), p ∈ sums (rows.map fun r => (r, c)) s → ∃ i : ℕ, rows[i]? = some p.1 ∧ p.2 = s + (i + 1) * c
  | [], _, _, h => by simp [sums] at h
  | a :: t, s, p, h => by
    simp only [List.map_cons, sums, List.mem_cons] at h
    rcases h with rfl | h
    · exact ⟨0, rfl, by simp⟩
    · obtain ⟨i, h1, h2⟩ := mem_sums_even c t (s + c) p h
      exact ⟨i + 1, by simpa using h1, by rw [h2]; push_cast; ring⟩

theorem findIn_nodup {rows : List Row} (hn : rows.Nodup) {i : ℕ} {r : Row} (h : rows[i]? = some r) : findIn r rows = some i := by
  cases hf : findIn r rows with
  | none => exact absurd (List.mem_of_getElem? h) (findIn_none.1 hf)
  | some j =>
    have h2 := (findIn_some hf).1
    have hj : j < rows.length := by
      by_contra hc
      rw [List.getElem?_eq_none (by omega)] at h2
      cases h2
    have := (List.getElem?_inj hj hn).1 (h2.trans h.symm)
    rw [this]

/-- **C96 (two samples) fails.** For two samples without weights that have no observation in common, wherever they are, the distance given is 1, the greatest there can be: the CDF of a PMF is zero at points it does not have. -/
theorem C96_two_samples_refuted (rows1 rows2 : List Row) (h1 : rows1 ≠ []) (h2 : rows2.Nodup) (hdis : ∀ r ∈ rows1, r ∉ rows2) :
    distanceTwo (cdfOf rows2) (even rows1) (even rows2) = some 1 := by
  have hl1 : (0 : ℝ) < rows1.length := by
    have := List.length_pos_iff.2 h1
    exact_mod_cast this
  obtain ⟨D, h, ⟨p, hp, he⟩, hmax⟩ := ksLoop_none (cdfOf rows2) (even rows1) (by simpa [even] using h1) 0
  have hD : D = 1 := by
    apply le_antisymm
    · rw [← he]
      obtain ⟨i, hi, hv⟩ := mem_sums_even _ rows1 0 p hp
      have hil : i < rows1.length := by
        by_contra hc
        rw [List.getElem?_eq_none (by omega)] at hi
        cases hi
      simp only
      rw [cdfOf_absent rows2 p.1 (hdis p.1 (List.mem_of_getElem? hi)), hv, sub_zero, zero_add]
      have : (0 : ℝ) ≤ (i + 1) * (1 / rows1.length) := by positivity
      rw [abs_of_nonneg this, mul_one_div, div_le_one hl1]
      exact_mod_cast hil
    · have hlast : rows1[rows1.length - 1]? = some (rows1.getLast h1) := by
        rw [List.getLast_eq_getElem, List.getElem?_eq_getElem]
      have := hmax _ (sums_even (1 / (rows1.length : ℝ)) rows1 0 _ _ hlast)
      simp only at this
      rw [cdfOf_absent rows2 _ (hdis _ (List.getLast_mem h1)), sub_zero, zero_add] at this
      have hc : ((rows1.length - 1 : ℕ) : ℝ) + 1 = rows1.length := by
        have := List.length_pos_iff.2 h1
        rw [Nat.cast_sub (by omega)]; simp
      rw [hc, mul_one_div, div_self hl1.ne', abs_one] at this
      exact this
  subst hD
  unfold distanceTwo
  rw [h]
  obtain ⟨D2, g, g1, g2, g3⟩ := ksLoop_some (cdfOf rows2) (even rows2) 0 1
  rw [g]
  rcases g1 with rfl | ⟨p, hp, g1⟩
  · rfl
  · congr 1
    apply le_antisymm _ g2
    rw [← g1]
    obtain ⟨i, hi, hv⟩ := mem_sums_even _ rows2 0 p hp
    have hil : i < rows2.length := by
      by_contra hc
      rw [List.getElem?_eq_none (by omega)] at hi
      cases hi
    have hl2 : (0 : ℝ) < rows2.length := by exact_mod_cast (by omega : 0 < rows2.length)
    have hc : cdfOf rows2 p.1 = i / rows2.length := by
      have := C66_unweighted rows2 p.1 i (findIn_nodup h2 hi)
      simp [cdfOf, this]
    rw [hc, hv]
    have : (0 : ℝ) + (i + 1) * (1 / rows2.length) - i / rows2.length = 1 / rows2.length := by field_simp; ring
    rw [this, abs_of_pos (by positivity), div_le_one hl2]
    exact_mod_cast (by omega : 1 ≤ rows2.length)

/-- **C96 (two samples, a CDF that is right) fails** too: the second loop compares the second model with itself. If the CDF of the second sample were given rightly, and all its observations were below all of the first's, the distance would be that at the first's observations only: here 0, where the two functions are 1 apart. -/
theorem C96_second_loop_refuted : distanceTwo (F [((0 : ℝ), 1)]) [(1, 1)] [(0, 1)] = some 0 ∧ |F [((1 : ℝ), 1)] 0 - F [((0 : ℝ), 1)] 0| = 1 := by
  constructor
  · norm_num [distanceTwo, ksLoop, maxWith, F]
  · norm_num [F]

/-- **C96 (p value).** The p value and the confidence sum to one. -/
theorem C96_pvalue (n n2 : ℕ) (d : ℝ) : (∀ r, pOne n d = some r → r.1 + r.2 = 1) ∧ (pTwo n n2 d).1 + (pTwo n n2 d).2 = 1 := by
  constructor
  · intro r h
    unfold pOne at h
    rw [Option.map_eq_some_iff] at h
    obtain ⟨ps, _, rfl⟩ := h
    simp
  · simp [pTwo]

/-- **C96 (p value, two samples).** At a distance that the statistic can take, what is given as p value is the portion, of the orders the two samples' observations can come in, of those with a statistic as large or larger. -/
theorem C96_pvalue_two (m n : ℕ) (hm : 0 < m) (hn : 0 < n) (k : ℕ) : (pTwo m n (k / (m * n))).1 = Smirnov.portion m n fun s => k / (m * n) ≤ Smirnov.D m n s :=
  (Smirnov.C94_pvalue m n hm hn k).2

end Apop.Ks
