import Verif.Db.Aggregates
import Mathlib.Tactic.NormNum

/-! # C101: the ANOVA table -/

namespace Apop.Anova
open Apop.Sql

/-! ## The model (exact arithmetic; SQLite; a table with rows, all of numbers) -/

/-- A row of the table: sum of squares, degrees of freedom, mean squares, F ratio, p value, confidence. `none`: no number. -/
structure Row where
  ss : ℝ
  df : ℝ
  ms : Option ℝ
  f : Option ℝ
  p : Option ℝ
  confidence : Option ℝ

/-- Division. -/
noncomputable def div? (a b : ℝ) : Option ℝ := by classical exact if b = 0 then none else some (a / b)

/-- `select var_pop(data) …`, for one group. -/
noncomputable def queryVarPop (l : List ℝ) : ℝ :=
  match aggregate "var_pop" (nums l) with
  | some (.num x) => x
  | _ => 0

/-- The ratio of two mean squares. -/
noncomputable def ratio (a b : Option ℝ) : Option ℝ := a.bind fun a => b.bind fun b => div? a b

/-- Rows of one-way tables: the grouping's, the residual's, the total's. -/
structure OneWay where
  group : Row
  residual : Row
  total : Row

/-- `apop_anova_one_way`, apop_tests.m4.c:250-296: `groups` are the rows' values, group by group in the order the database gives them; `P` is `gsl_cdf_fdist_P`. What is not set is zero from the allocation. -/
noncomputable def oneWay (P : ℝ → ℝ → ℝ → ℝ) (groups : List (List ℝ)) : OneWay :=
  let tss := queryVarPop groups.flatten * groups.flatten.length
  let totalDf : ℝ := groups.flatten.length
  let groupDf : ℝ := groups.length - 1
  let wss := queryVarPop (groups.headD []) * groupDf
  let residualSs := tss - wss
  let residualDf := totalDf - groupDf
  let ms0 := div? wss groupDf
  let ms1 := div? residualSs residualDf
  let f := ratio ms0 ms1
  let p := f.map fun f => P f groupDf residualDf
  ⟨⟨wss, groupDf, ms0, f, p, p.map (1 - ·)⟩, ⟨residualSs, residualDf, ms1, some 0, some 0, some 0⟩, ⟨tss, totalDf, some 0, some 0, some 0, some 0⟩⟩

/-- A row with its F ratio, p value and confidence made anew, apop_tests.m4.c:348-358. -/
noncomputable def again (P : ℝ → ℝ → ℝ → ℝ) (r res : Row) : Row :=
  let f := ratio r.ms res.ms
  let p := f.map fun f => P f r.df res.df
  { r with f := f, p := p, confidence := p.map (1 - ·) }

/-- The rows of a two-way table. -/
structure TwoWay where
  first : Row
  second : Row
  interaction : Row
  residual : Row
  total : Row

/-- `apop_anova` with two groupings, apop_tests.m4.c:321-365: the groups by the first, by the second, and by both. -/
noncomputable def twoWay (P : ℝ → ℝ → ℝ → ℝ) (g1 g2 g12 : List (List ℝ)) : TwoWay :=
  let a := (oneWay P g1)
  let b := (oneWay P g2).group
  let c := (oneWay P g12).group
  let ss := a.total.ss - a.group.ss - b.ss - c.ss
  let df := a.total.df - a.group.df - b.df - c.df
  let res : Row := ⟨ss, df, div? ss df, some 0, some 0, some 0⟩
  ⟨again P a.group res, again P b res, again P c res, res, a.total⟩

/-! ## Specification -/

/-- The mean. -/
noncomputable def mean (l : List ℝ) : ℝ := l.sum / l.length

/-- The sum of squares about a point. -/
noncomputable def ssAbout (m : ℝ) (l : List ℝ) : ℝ := (l.map fun x => (x - m) ^ 2).sum

/-- What an ANOVA table has for the grouping: the squares between the groups' means and the overall mean, each group as often as it has elements. -/
noncomputable def between (groups : List (List ℝ)) : ℝ := (groups.map fun g => g.length * (mean g - mean groups.flatten) ^ 2).sum

/-- And for the residual: the squares about the groups' means. -/
noncomputable def within (groups : List (List ℝ)) : ℝ := (groups.map fun g => ssAbout (mean g) g).sum

/-! ## Proofs -/

theorem queryVarPop_eq (l : List ℝ) (h : l ≠ []) : queryVarPop l = central 2 l := by
  unfold queryVarPop
  match l, h with
  | [x], _ =>
    obtain ⟨r, hr⟩ : ∃ r, aggregate "var_pop" (nums [x]) = some r := by
      simp [aggregate]
    have := C103_one "var_pop" (.num x) r hr
    rw [hr, this]
    simp [central]
  | x :: y :: l, _ => rw [(C103_population (x :: y :: l) (by simp)).1 "var_pop" (by simp)]

theorem queryVarPop_mul (l : List ℝ) (h : l ≠ []) : queryVarPop l * l.length = ssAbout (mean l) l := by
  have h0 : (l.length : ℝ) ≠ 0 := by rw [Nat.cast_ne_zero, ne_eq, List.length_eq_zero_iff]; exact h
  rw [queryVarPop_eq l h]
  unfold central ssAbout mean
  rw [div_mul_cancel₀ _ h0]

/-- **C101 (total).** For any table, the total's sum of squares is that about the mean of all rows. -/
theorem C101_total (P : ℝ → ℝ → ℝ → ℝ) (groups : List (List ℝ)) (h : groups.flatten ≠ []) : (oneWay P groups).total.ss = ssAbout (mean groups.flatten) groups.flatten :=
  queryVarPop_mul _ h

/-- **C101 (the rows add up).** In one- and two-way tables the sums of squares and the degrees of freedom of the rows add up to the total's. -/
theorem C101_adds (P : ℝ → ℝ → ℝ → ℝ) (g1 g2 g12 : List (List ℝ)) :
    (oneWay P g1).group.ss + (oneWay P g1).residual.ss = (oneWay P g1).total.ss ∧ (oneWay P g1).group.df + (oneWay P g1).residual.df = (oneWay P g1).total.df ∧
    (twoWay P g1 g2 g12).first.ss + (twoWay P g1 g2 g12).second.ss + (twoWay P g1 g2 g12).interaction.ss + (twoWay P g1 g2 g12).residual.ss = (twoWay P g1 g2 g12).total.ss ∧
    (twoWay P g1 g2 g12).first.df + (twoWay P g1 g2 g12).second.df + (twoWay P g1 g2 g12).interaction.df + (twoWay P g1 g2 g12).residual.df = (twoWay P g1 g2 g12).total.df := by
  refine ⟨?_, ?_, ?_, ?_⟩
  · simp [oneWay]
  · simp [oneWay]
  · simp only [twoWay, again]; ring
  · simp only [twoWay, again]; ring

/-- The mean squares, ratios, and degrees of freedom of the groupings: numbers of groups less one, sums over degrees of freedom, and the grouping's mean squares over the residual's. -/
theorem C101_ratios (P : ℝ → ℝ → ℝ → ℝ) (g : List (List ℝ)) : (oneWay P g).group.df = g.length - 1 ∧ (oneWay P g).group.ms = div? (oneWay P g).group.ss (oneWay P g).group.df ∧
    (oneWay P g).residual.ms = div? (oneWay P g).residual.ss (oneWay P g).residual.df ∧ (oneWay P g).group.f = ratio (oneWay P g).group.ms (oneWay P g).residual.ms :=
  ⟨rfl, rfl, rfl, rfl⟩

/-- **C101 (the test).** In a one-way table, and in each of the three rows of a two-way table: if the row's and the residual's mean squares are numbers `a` and `r`, the latter not zero, the F ratio is a/r, the p value
is the F distribution's at it with the row's and the residual's degrees of freedom, and the confidence is one less the p value. -/
theorem C101_tests (P : ℝ → ℝ → ℝ → ℝ) (g1 g2 g12 : List (List ℝ)) (row res : Row)
    (hrow : (row = (oneWay P g1).group ∧ res = (oneWay P g1).residual) ∨
      ((row = (twoWay P g1 g2 g12).first ∨ row = (twoWay P g1 g2 g12).second ∨ row = (twoWay P g1 g2 g12).interaction) ∧ res = (twoWay P g1 g2 g12).residual))
    (a r : ℝ) (ha : row.ms = some a) (hr : res.ms = some r) (h0 : r ≠ 0) :
    row.f = some (a / r) ∧ row.p = some (P (a / r) row.df res.df) ∧ row.confidence = some (1 - P (a / r) row.df res.df) := by
  have one : ∀ g : List (List ℝ), (oneWay P g).group.f = ratio (oneWay P g).group.ms (oneWay P g).residual.ms ∧
      (oneWay P g).group.p = (oneWay P g).group.f.map (fun f => P f (oneWay P g).group.df (oneWay P g).residual.df) ∧
      (oneWay P g).group.confidence = (oneWay P g).group.p.map (1 - ·) := fun g => ⟨rfl, rfl, rfl⟩
  have two : ∀ x y : Row, (again P x y).ms = x.ms ∧ (again P x y).df = x.df ∧ (again P x y).f = ratio x.ms y.ms ∧
      (again P x y).p = (again P x y).f.map (fun f => P f x.df y.df) ∧ (again P x y).confidence = (again P x y).p.map (1 - ·) := fun x y => ⟨rfl, rfl, rfl, rfl, rfl⟩
  have hrat : ratio (some a) (some r) = some (a / r) := by simp [ratio, div?, h0]
  rcases hrow with ⟨rfl, rfl⟩ | ⟨h, rfl⟩
  · obtain ⟨e1, e2, e3⟩ := one g1
    rw [e3, e2, e1, ha, hr, hrat]
    exact ⟨rfl, rfl, rfl⟩
  · have key : ∃ x, row = again P x (twoWay P g1 g2 g12).residual := by
      rcases h with rfl | rfl | rfl
      exacts [⟨_, rfl⟩, ⟨_, rfl⟩, ⟨_, rfl⟩]
    obtain ⟨x, rfl⟩ := key
    obtain ⟨e0, e1, e2, e3, e4⟩ := two x (twoWay P g1 g2 g12).residual
    rw [e0] at ha
    rw [e4, e3, e2, ha, hr, hrat, e1]
    exact ⟨rfl, rfl, rfl⟩

theorem ss_shift (m : ℝ) (l : List ℝ) : ssAbout m l = ssAbout (mean l) l + l.length * (mean l - m) ^ 2 := by
  have key : ∀ (l : List ℝ) (a : ℝ), ssAbout m l = ssAbout a l + 2 * (a - m) * (l.sum - l.length * a) + l.length * (a - m) ^ 2 := by
    intro l a
    induction l with
    | nil => simp [ssAbout]
    | cons x l ih =>
      simp only [ssAbout, List.map_cons, List.sum_cons, List.length_cons] at ih ⊢
      rw [ih]
      push_cast
      ring
  rw [key l (mean l)]
  rcases Nat.eq_zero_or_pos l.length with h0 | h0
  · have : l = [] := List.length_eq_zero_iff.1 h0
    subst this
    simp [ssAbout]
  · have h1 : (l.length : ℝ) ≠ 0 := by positivity
    have : l.sum - l.length * mean l = 0 := by unfold mean; field_simp; ring
    rw [this]
    ring

/-- What the total should be made of: the squares about the overall mean are those between the groups and those within. -/
theorem C101_identity (groups : List (List ℝ)) : ssAbout (mean groups.flatten) groups.flatten = between groups + within groups := by
  unfold between within
  generalize mean groups.flatten = m
  induction groups with
  | nil => simp [ssAbout]
  | cons g gs ih =>
    have : ssAbout m (g :: gs).flatten = ssAbout m g + ssAbout m gs.flatten := by simp [ssAbout]
    rw [this, ih, ss_shift m g]
    simp only [List.map_cons, List.sum_cons]
    ring

/-- **C101 (the grouping's sum of squares) fails**: what is given is the population variance of the *first* group times the number of groups less one. So, whatever the other groups hold, a first group without variance has a sum of squares and an F ratio of zero. -/
theorem C101_between_refuted (P : ℝ → ℝ → ℝ → ℝ) (g : List ℝ) (gs : List (List ℝ)) (hg : g ≠ []) :
    (oneWay P (g :: gs)).group.ss = central 2 g * gs.length ∧ (central 2 g = 0 → (oneWay P (g :: gs)).group.ss = 0) := by
  have : (oneWay P (g :: gs)).group.ss = central 2 g * gs.length := by
    simp [oneWay, queryVarPop_eq g hg]
  refine ⟨this, fun h => ?_⟩
  rw [this, h, zero_mul]

/-- For the groups 0, 0 and 2, 2, which differ by nothing but the group, the grouping's sum of squares should be 4 and the residual's 0. It is the other way round. -/
theorem C101_example_refuted (P : ℝ → ℝ → ℝ → ℝ) : between [[0, 0], [2, 2]] = 4 ∧ within [[0, 0], [2, 2]] = 0 ∧
    (oneWay P [[0, 0], [2, 2]]).group.ss = 0 ∧ (oneWay P [[0, 0], [2, 2]]).residual.ss = 4 := by
  have h1 : (oneWay P [[0, 0], [2, 2]]).group.ss = 0 := by
    rw [(C101_between_refuted P [0, 0] [[2, 2]] (by simp)).1]
    norm_num [central]
  have h2 := C101_total P [[0, 0], [2, 2]] (by simp)
  have h3 := (C101_adds P [[0, 0], [2, 2]] [] []).1
  refine ⟨by norm_num [between, mean], by norm_num [within, ssAbout, mean], h1, ?_⟩
  rw [h1, h2, zero_add] at h3
  rw [h3]
  norm_num [ssAbout, mean]

/-- **C101 (degrees of freedom) fails**: the total has as many as rows, and should have one less, and the residual the rows less the groups *plus one*, and should have the rows less the groups. -/
theorem C101_df_refuted (P : ℝ → ℝ → ℝ → ℝ) (groups : List (List ℝ)) : (oneWay P groups).total.df = groups.flatten.length ∧ (oneWay P groups).residual.df = groups.flatten.length - groups.length + 1 := by
  refine ⟨rfl, ?_⟩
  show ((groups.flatten.length : ℝ) - ((groups.length : ℝ) - 1)) = _
  ring

/-- **C101 (p value) fails**: the p value is the *lower* tail of the F distribution, and the confidence the upper: the two are exchanged. So the larger the F ratio, the larger the p value. For any table whose F ratio is a number: -/
theorem C101_tails_refuted (P : ℝ → ℝ → ℝ → ℝ) (groups : List (List ℝ)) (f : ℝ) (h : (oneWay P groups).group.f = some f) :
    (oneWay P groups).group.p = some (P f (oneWay P groups).group.df (oneWay P groups).residual.df) ∧ (oneWay P groups).group.confidence = some (1 - P f (oneWay P groups).group.df (oneWay P groups).residual.df) := by
  have hp : (oneWay P groups).group.p = (oneWay P groups).group.f.map fun f => P f (oneWay P groups).group.df (oneWay P groups).residual.df := rfl
  have hc : (oneWay P groups).group.confidence = (oneWay P groups).group.p.map (1 - ·) := rfl
  rw [hc, hp, h]
  exact ⟨rfl, rfl⟩

/-- Nonvacuity: the groups 1, 3 and 2, 6: the F ratio is a number. -/
example (P : ℝ → ℝ → ℝ → ℝ) : (oneWay P [[1, 3], [2, 6]]).group.f = some (1 / (13 / 3)) := by
  have h1 : queryVarPop [1, 3] = 1 := by rw [queryVarPop_eq _ (by simp)]; norm_num [central]
  have h2 : queryVarPop [1, 3, 2, 6] = 7 / 2 := by rw [queryVarPop_eq _ (by simp)]; norm_num [central]
  simp [oneWay, h1, h2, div?, ratio]
  norm_num

end Apop.Anova
