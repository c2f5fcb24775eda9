import Verif.Name.Props

/-! # Names and pages of a linear regression's results (model/apop_ols.c)

What `apop_estimate(data, apop_ols)` hands back beside the numbers: which pages exist, whether they
have been filled in, and under which names the user can look results up. The numbers themselves are
C83-C86. -/

namespace Apop.OlsNames

open Apop Names

/-- The switches of the `apop_parts_wanted` settings group that least squares reads (apop.m4.h:1274-1281);
characters, default 'n' (apop_mle.m4.c:43-48). -/
structure Parts where
  covariance : Char := 'n'
  predicted : Char := 'n'

/-- The deprecated switches of the `apop_lm` settings group (apop.m4.h:1246-1247); `apop_estimate_OLS` adds the
group when it is missing (model/apop_ols.c:313-314), and its initialiser turns 0 and 1 to 'y'
(model/apop_ols.c:65-66). -/
structure Lm where
  wantCov : Char := 'y'
  wantExpected : Char := 'y'

/-- C truth value of a `char`. -/
def truthy (c : Char) : Bool := c.toNat != 0

/-- A page of results: its names, and whether anything has been written to the matrix
(`apop_data_alloc` does not clear it). -/
structure Page where
  names : Names
  filled : Bool
  deriving DecidableEq

/-- `ols_shuffle` on the names, model/apop_ols.c:95-106 (called by `ols_prep`). `hasVec` says whether the
data set has a vector. Without one, the first column name becomes the vector's name and `sprintf` overwrites
its bytes with "1" in place, leaving the stored hash alone; the block of an empty name has one byte, so
writing two is undefined. `apop_data_alloc` always makes a name structure. -/
def shuffleNames (hasVec : Bool) (n : Names) : Res Names :=
  if hasVec then .ok n
  else match n.col with
    | [] => .ok n
    | c :: cs =>
      if c = [] then .ub
      else .ok { (n.add (some c) 'v').1 with col := str "1" :: cs }

/-- `(pwant && pwant->covariance) || (!pwant && olp && olp->want_cov=='y')`, model/apop_ols.c:86, 327, 340. -/
def wantsCov (pw : Option Parts) (lm : Lm) : Bool :=
  match pw with
  | some p => truthy p.covariance
  | none => lm.wantCov == 'y'

/-- `(pwant && pwant->predicted) || (!pwant && olp && olp->want_expected_value=='y')`, model/apop_ols.c:325. -/
def wantsPred (pw : Option Parts) (lm : Lm) : Bool :=
  match pw with
  | some p => truthy p.predicted
  | none => lm.wantExpected == 'y'

/-- The same question as asked in `xpxinvxpy`, model/apop_ols.c:231: `want_expected_value` is not compared with 'y'. -/
def fillsPred (pw : Option Parts) (lm : Lm) : Bool :=
  match pw with
  | some p => truthy p.predicted
  | none => truthy lm.wantExpected

/-- The short cut of `xpxinvxpy`, model/apop_ols.c:211-212. -/
def shortCut (pw : Option Parts) (lm : Lm) : Bool :=
  match pw with
  | some p => p.covariance != 'y' && p.predicted != 'y'
  | none => lm.wantCov != 'y' && lm.wantExpected != 'y'

/-- A page from `apop_data_alloc`. -/
def blank : Page := ⟨alloc, false⟩

/-- The pages just before and after `xpxinvxpy`, model/apop_ols.c:208-243, 325-328: (`<Covariance>`, `<Predicted>`). -/
def solvePages (pw : Option Parts) (lm : Lm) : Res (Option Page × Option Page) :=
  if shortCut pw lm then
    .ok (if wantsCov pw lm then some blank else none, if wantsPred pw lm then some blank else none)
  else if fillsPred pw lm then
    if wantsPred pw lm then .ok (some ⟨alloc, true⟩, some ⟨alloc, true⟩)
    else .ub -- `predicted_page` is NULL
  else .ok (some ⟨alloc, true⟩, if wantsPred pw lm then some blank else none)

/-- The name given to the first column of `<Predicted>`, model/apop_ols.c:77. -/
def firstName (d : Names) : CStr :=
  match d.col with
  | [] => str "Observed"
  | c :: _ => c

/-- model/apop_ols.c:76-80. -/
def namePred (d : Names) (p : Page) : Page :=
  ⟨(((p.names.add (some (firstName d)) 'c').1.add (some (str "Predicted")) 'c').1.add (some (str "Residual")) 'c').1, p.filled⟩

/-- model/apop_ols.c:82-86; the parameters are fresh from `apop_dot` or `apop_data_alloc`, so they come without names
(`apop_dot` passes on row names of (X'X)⁻¹, which has none: apop_linear_algebra.m4.c:457-464). -/
def nameParams (d : Names) : Names :=
  match d.vector with
  | none => alloc
  | some v => (((({ alloc with title := some (str "Regression of " ++ v) } : Names).add (some (str "parameters")) 'v').1).addAll d.col 'r')

/-- model/apop_ols.c:87-93. -/
def nameCov (pw : Option Parts) (lm : Lm) (d : Names) (p : Page) : Page :=
  match d.vector with
  | none => p
  | some _ =>
    if wantsCov pw lm then ⟨(p.names.stack (some d) (some 'c') none).stack (some d) (some 'r') (some 'c'), p.filled⟩ else p

/-- What the user gets: the names of the data set (which was modified), of the parameters, the pages, the row names of the
`<test info>` page, and whether R² and the like were added to the info page. -/
structure Results where
  data : Names
  params : Names
  cov : Option Page
  pred : Option Page
  tests : Option Names
  rsq : Bool

/-- `apop_estimate_parameter_tests`, apop_regression.m4.c:8-35, as far as pages and names go: reads the covariance page. -/
def testPage (params : Names) (cov : Option Page) : Res Names :=
  match cov with
  | none => .ub
  | some c =>
    if c.filled then
      .ok ((((alloc.add (some (str "p value")) 'c').1.add (some (str "confidence")) 'c').1.stack (some params) (some 'r') (some 'r')))
    else .ub

/-- The R² step, model/apop_ols.c:345-346 with apop_regression.m4.c:522-549: NULL without a `<Predicted>` page (and stacking NULL
changes nothing); otherwise the page is read. -/
def rsqStep (pred : Option Page) : Res Bool :=
  match pred with
  | none => .ok false
  | some p => if p.filled then .ok true else .ub

/-- The end of `apop_estimate_OLS`, model/apop_ols.c:336-347. -/
def finish (pw : Option Parts) (lm : Lm) (d : Names) (cov pred : Option Page) : Res Results :=
  (if wantsCov pw lm then (testPage (nameParams d) (cov.map (nameCov pw lm d))).bind (fun t => .ok (some t)) else .ok none).bind fun t =>
  (rsqStep (pred.map (namePred d))).bind fun r =>
  .ok ⟨d, nameParams d, cov.map (nameCov pw lm d), pred.map (namePred d), t, r⟩

/-- `apop_estimate(data, apop_ols)`: prep then `apop_estimate_OLS`, model/apop_ols.c:110-122, 309-353. -/
def estimate (pw : Option Parts) (lm : Lm) (hasVec : Bool) (n : Names) : Res Results :=
  (shuffleNames hasVec n).bind fun d =>
  (solvePages pw lm).bind fun cp => finish pw lm d cp.1 cp.2

/-! ## Lemmas -/

theorem bind_ok_iff {α β : Type _} {x : Res α} {f : α → Res β} {b : β} : x.bind f = .ok b ↔ ∃ a, x = .ok a ∧ f a = .ok b := by
  cases x <;> simp [Res.bind]

theorem finish_ok {pw lm d cov pred R} (h : finish pw lm d cov pred = .ok R) :
    R.data = d ∧ R.params = nameParams d ∧ R.cov = cov.map (nameCov pw lm d) ∧ R.pred = pred.map (namePred d) ∧
    (R.tests.isSome = wantsCov pw lm) ∧ (∀ t, R.tests = some t → testPage (nameParams d) R.cov = .ok t) ∧ (R.rsq = pred.isSome) := by
  unfold finish at h
  obtain ⟨t, ht, h⟩ := bind_ok_iff.1 h
  obtain ⟨r, hr, h⟩ := bind_ok_iff.1 h
  injection h with h
  subst h
  refine ⟨rfl, rfl, rfl, rfl, ?_, ?_, ?_⟩
  · by_cases hw : wantsCov pw lm = true
    · rw [if_pos hw] at ht
      obtain ⟨a, _, ha⟩ := bind_ok_iff.1 ht
      injection ha with ha
      simp [← ha, hw]
    · rw [if_neg hw] at ht
      injection ht with ht
      simp [← ht, hw]
  · intro t' ht'
    by_cases hw : wantsCov pw lm = true
    · rw [if_pos hw] at ht
      obtain ⟨a, ha', ha⟩ := bind_ok_iff.1 ht
      injection ha with ha
      rw [← ha] at ht'
      injection ht' with ht'
      rw [← ht']; exact ha'
    · rw [if_neg hw] at ht
      injection ht with ht
      rw [← ht] at ht'
      cases ht'
  · cases pred with
    | none => simp [rsqStep] at hr; simp [← hr]
    | some p =>
      simp only [Option.map_some, rsqStep] at hr
      by_cases hf : (namePred d p).filled = true
      · rw [if_pos hf] at hr; injection hr with hr; simp [← hr]
      · rw [if_neg hf] at hr; cases hr

theorem estimate_ok {pw lm hv n R} (h : estimate pw lm hv n = .ok R) :
    ∃ cp, shuffleNames hv n = .ok R.data ∧ solvePages pw lm = .ok cp ∧ finish pw lm R.data cp.1 cp.2 = .ok R := by
  obtain ⟨d, hd, h⟩ := bind_ok_iff.1 h
  obtain ⟨cp, hc, h⟩ := bind_ok_iff.1 h
  have := (finish_ok h).1
  subst this
  exact ⟨cp, hd, hc, h⟩

theorem nameParams_spec {d : Names} {v} (h : d.vector = some v) :
    (nameParams d).title = some (str "Regression of " ++ v) ∧ (nameParams d).vector = some (str "parameters") ∧
    (nameParams d).row = d.col ∧ (nameParams d).col = [] ∧ (nameParams d).text = [] := by
  unfold nameParams
  rw [h]
  obtain ⟨a, b, c, e, f⟩ := addAll_of_row (n := (({ alloc with title := some (str "Regression of " ++ v) } : Names).add (some (str "parameters")) 'v').1) (src := d.col)
  refine ⟨f.trans rfl, e.trans rfl, ?_, b.trans rfl, c.trans rfl⟩
  rw [a]; rfl

theorem nameParams_good (d : Names) : Good (nameParams d) := by
  unfold nameParams
  cases d.vector with
  | none => exact good_alloc
  | some v =>
    refine good_addAll (good_add ?_ _ _) _ _
    simpa [Good] using good_alloc

theorem namePred_col {d : Names} {p : Page} (h : p.names = alloc) : (namePred d p).names.col = [firstName d, str "Predicted", str "Residual"] ∧
    (namePred d p).names.vector = none ∧ Good (namePred d p).names := by
  unfold namePred
  rw [h]
  exact ⟨rfl, rfl, good_add (good_add (good_add good_alloc _ _) _ _) _ _⟩

theorem nameCov_spec {pw lm} {d : Names} {p : Page} {v} (hp : p.names = alloc) (h : d.vector = some v) (hw : wantsCov pw lm = true) :
    (nameCov pw lm d p).names.row = d.col ∧ (nameCov pw lm d p).names.col = d.col ∧ Good (nameCov pw lm d p).names := by
  unfold nameCov
  rw [h]
  simp only [hw, if_true, hp]
  have h1 := C03_stack_appends alloc d 'c' 'c' (by simp)
  have h2 := C03_stack_appends (alloc.stack (some d) (some 'c') (some 'c')) d 'r' 'c' (by simp)
  simp only [(C03_stack_defaults alloc d 'c').2]
  refine ⟨?_, ?_, good_stack (good_stack good_alloc _ _ _) _ _ _⟩
  · rw [h2.1, if_pos rfl, h1.1]; simp [alloc, srcList]
  · rw [h2.2.2.1, if_neg (by decide), h1.2.2.1]; simp [alloc, srcList, isCol]

theorem solvePages_names {pw lm cp} (h : solvePages pw lm = .ok cp) : (∀ p, cp.1 = some p → p.names = alloc) ∧ (∀ p, cp.2 = some p → p.names = alloc) := by
  unfold solvePages blank at h
  cases h1 : shortCut pw lm <;> cases h2 : fillsPred pw lm <;> cases h3 : wantsPred pw lm <;> cases h4 : wantsCov pw lm <;>
    simp [h1, h2, h3, h4] at h <;> subst h <;> simp

/-- Names pairwise different up to case are found where they are. -/
theorem find_at {m : Names} (hm : Good m) (t : Char) {l : List CStr} (hl : m.listFor t = l) {j : Nat} {s : CStr} (hs : l[j]? = some s)
    (hd : ∀ i x, l[i]? = some x → SameUpToCase s x → i = j) : m.find (some s) t = .ok (j : Int) := by
  subst hl
  obtain ⟨r, hr⟩ := find_total hm (some s) t
  rw [hr]
  have hrefl : SameUpToCase s s := (sameUpToCase_iff s s).2 (caseEq_refl s)
  have hmem : s ∈ m.listFor t := List.mem_of_getElem? hs
  rcases C02_find_sound _ _ _ _ hr with ⟨h0, x, hx, hc⟩ | ⟨_, ht, _, hn⟩ | ⟨_, hn, _⟩
  · have := hd _ x hx hc
    congr 1; omega
  · have : m.listFor t = m.col := by rcases ht with h | h <;> subst h <;> simp [listFor]
    exact absurd hrefl (hn s (this ▸ hmem))
  · exact absurd hrefl (hn s hmem)

/-! ## C191: the names of the results -/

/-- What the results are called, in terms of the dependent variable's name and the list of regressors' names. -/
structure Named (y : CStr) (xs : List CStr) (R : Results) : Prop where
  data : R.data.vector = some y ∧ R.data.col = xs
  title : R.params.title = some (str "Regression of " ++ y)
  vector : R.params.vector = some (str "parameters")
  rows : R.params.row = xs
  cov : ∀ p t, R.cov = some p → R.tests = some t → p.names.row = xs ∧ p.names.col = xs
  tests : ∀ t, R.tests = some t → t.row = xs ∧ t.col = [str "p value", str "confidence"]
  pred : ∀ p, R.pred = some p → p.names.col = [xs.headD (str "Observed"), str "Predicted", str "Residual"]

theorem named_of {pw lm hv n R v} (h : estimate pw lm hv n = .ok R) (hd : R.data.vector = some v) : Named v R.data.col R := by
  obtain ⟨cp, _, hc, hf⟩ := estimate_ok h
  obtain ⟨_, hp, hcov, hpred, hts, ht, _⟩ := finish_ok hf
  obtain ⟨n1, n2⟩ := solvePages_names hc
  obtain ⟨a, b, c, _, _⟩ := nameParams_spec hd
  refine ⟨⟨hd, rfl⟩, hp ▸ a, hp ▸ b, hp ▸ c, ?_, ?_, ?_⟩
  · intro p t hp' ht'
    have hw : wantsCov pw lm = true := by rw [← hts, ht']; rfl
    rw [hcov] at hp'
    cases hcp : cp.1 with
    | none => rw [hcp] at hp'; cases hp'
    | some q =>
      rw [hcp] at hp'
      injection hp' with hp'
      subst hp'
      have := nameCov_spec (pw := pw) (lm := lm) (n1 q hcp) hd hw
      exact ⟨this.1, this.2.1⟩
  · intro t ht'
    have := ht t ht'
    unfold testPage at this
    cases hR : R.cov with
    | none => rw [hR] at this; cases this
    | some q =>
      rw [hR] at this
      simp only at this
      by_cases hq : q.filled = true
      · rw [if_pos hq] at this
        injection this with this
        subst this
        have := C03_stack_appends ((alloc.add (some (str "p value")) 'c').1.add (some (str "confidence")) 'c').1 (nameParams R.data) 'r' 'r' (by simp)
        refine ⟨?_, ?_⟩
        · rw [this.1, if_pos rfl]; simp [srcList, c]; rfl
        · rw [this.2.2.1, if_neg (by decide)]; rfl
      · rw [if_neg hq] at this; cases this
  · intro p hp'
    rw [hpred] at hp'
    cases hcp : cp.2 with
    | none => rw [hcp] at hp'; cases hp'
    | some q =>
      rw [hcp] at hp'
      injection hp' with hp'
      subst hp'
      rw [(namePred_col (n2 q hcp)).1]
      unfold firstName
      cases R.data.col <;> rfl

/-- **C191** (data without a vector). The first column's name becomes the dependent variable's name, the column
of ones is called "1", and every result is labelled with these names. -/
theorem C191_names_no_vector (pw : Option Parts) (lm : Lm) (n : Names) (y : CStr) (xs : List CStr) (hn : n.col = y :: xs) (R : Results)
    (h : estimate pw lm false n = .ok R) : Named y (str "1" :: xs) R := by
  obtain ⟨cp, hs, _, _⟩ := estimate_ok h
  unfold shuffleNames at hs
  rw [if_neg (by decide), hn] at hs
  simp only at hs
  by_cases hy : y = []
  · rw [if_pos hy] at hs; cases hs
  · rw [if_neg hy] at hs
    injection hs with hs
    have h1 : R.data.vector = some y := by rw [← hs]; rfl
    have h2 : R.data.col = str "1" :: xs := by rw [← hs]
    rw [← h2]
    exact named_of h h1

/-- **C191** (data with a named vector). The results carry the vector's and the columns' names, which are unchanged. -/
theorem C191_names_with_vector (pw : Option Parts) (lm : Lm) (n : Names) (y : CStr) (hn : n.vector = some y) (R : Results)
    (h : estimate pw lm true n = .ok R) : Named y n.col R ∧ R.data = n := by
  obtain ⟨cp, hs, _, _⟩ := estimate_ok h
  have hd : R.data = n := by
    unfold shuffleNames at hs
    rw [if_pos rfl] at hs
    injection hs with hs; exact hs.symm
  exact ⟨by rw [← hd]; exact named_of h (hd ▸ hn), hd⟩

/-- **C191** (lookup). A coefficient whose name differs from the others, up to case, is found by that name in the parameters,
in both directions of the covariance and in the table of tests. -/
theorem C191_lookup (pw : Option Parts) (lm : Lm) (hv : Bool) (n : Names) (R : Results) (y : CStr) (h : estimate pw lm hv n = .ok R)
    (hy : R.data.vector = some y) (j : Nat) (s : CStr) (hs : R.data.col[j]? = some s)
    (hd : ∀ i x, R.data.col[i]? = some x → SameUpToCase s x → i = j) :
    R.params.find (some s) 'r' = .ok (j : Int) ∧
    (∀ p t, R.cov = some p → R.tests = some t → p.names.find (some s) 'r' = .ok (j : Int) ∧ p.names.find (some s) 'c' = .ok (j : Int) ∧ t.find (some s) 'r' = .ok (j : Int)) := by
  have N := named_of h hy
  obtain ⟨cp, _, hc, hf⟩ := estimate_ok h
  obtain ⟨_, hp, hcov, hpred, hts, ht, _⟩ := finish_ok hf
  obtain ⟨n1, n2⟩ := solvePages_names hc
  refine ⟨find_at (hp ▸ nameParams_good _) 'r' (l := R.data.col) (by simpa [listFor] using N.rows) hs hd, ?_⟩
  intro p t hp' ht'
  obtain ⟨r1, r2⟩ := N.cov p t hp' ht'
  have hw : wantsCov pw lm = true := by rw [← hts, ht']; rfl
  have hgood : Good p.names := by
    rw [hcov] at hp'
    cases hcp : cp.1 with
    | none => rw [hcp] at hp'; cases hp'
    | some q =>
      rw [hcp] at hp'
      injection hp' with hp'
      subst hp'
      exact (nameCov_spec (pw := pw) (lm := lm) (n1 q hcp) hy hw).2.2
  have htgood : Good t := by
    have := ht t ht'
    unfold testPage at this
    rw [hp'] at this
    simp only at this
    by_cases hq : p.filled = true
    · rw [if_pos hq] at this
      injection this with this
      subst this
      exact good_stack (good_add (good_add good_alloc _ _) _ _) _ _ _
    · rw [if_neg hq] at this; cases this
  exact ⟨find_at hgood 'r' (l := R.data.col) (by simpa [listFor] using r1) hs hd, find_at hgood 'c' (l := R.data.col) (by simpa [listFor] using r2) hs hd,
    find_at htgood 'r' (l := R.data.col) (by simpa [listFor] using (N.tests t ht').1) hs hd⟩

theorem pred_good {pw lm hv n R p} (h : estimate pw lm hv n = .ok R) (hp : R.pred = some p) : Good p.names ∧ p.names.vector = none ∧
    p.names.col = [firstName R.data, str "Predicted", str "Residual"] := by
  obtain ⟨cp, _, hc, hf⟩ := estimate_ok h
  obtain ⟨_, _, _, hpred, _⟩ := finish_ok hf
  rw [hpred] at hp
  cases hcp : cp.2 with
  | none => rw [hcp] at hp; cases hp
  | some q =>
    rw [hcp] at hp
    injection hp with hp
    subst hp
    have := namePred_col (d := R.data) ((solvePages_names hc).2 q hcp)
    exact ⟨this.2.2, this.2.1, this.1⟩

/-- **C191** (the documented lookups in `<Predicted>`). "predicted" is column 1 and "residual" column 2, whenever the first regressor
is not called one of these (for data without a vector it never is: it is called "1" or "Observed"). -/
theorem C191_predicted_residual (pw : Option Parts) (lm : Lm) (hv : Bool) (n : Names) (R : Results) (p : Page) (h : estimate pw lm hv n = .ok R)
    (hp : R.pred = some p) (h1 : ∀ c ∈ R.data.col.head?, ¬ SameUpToCase (str "predicted") c ∧ ¬ SameUpToCase (str "residual") c) :
    p.names.find (some (str "predicted")) 'c' = .ok 1 ∧ p.names.find (some (str "residual")) 'c' = .ok 2 := by
  obtain ⟨hg, hvec, hcol⟩ := pred_good h hp
  have hf : ¬ caseEq (str "predicted") (firstName R.data) = true ∧ ¬ caseEq (str "residual") (firstName R.data) = true := by
    unfold firstName
    cases hc : R.data.col with
    | nil => exact ⟨by decide +kernel, by decide +kernel⟩
    | cons c cs =>
      have := h1 c (by rw [hc]; rfl)
      simpa only [sameUpToCase_iff] using this
  have key : ∀ s (j : Nat), (∃ x, p.names.col[j]? = some x ∧ SameUpToCase s x) → (∀ i x, p.names.col[i]? = some x → SameUpToCase s x → i = j) →
      p.names.find (some s) 'c' = .ok (j : Int) := by
    rintro s j ⟨x, hx, hsx⟩ hu
    obtain ⟨r, hr⟩ := find_total hg (some s) 'c'
    have hl : p.names.listFor 'c' = p.names.col := rfl
    rw [hr]
    rcases C02_find_sound _ _ _ _ hr with ⟨h0, z, hz, hc⟩ | ⟨_, ht, _, hn⟩ | ⟨_, hn, _⟩
    · have := hu _ z hz hc
      congr 1; omega
    · exact absurd hsx (hn x (List.mem_of_getElem? hx))
    · exact absurd hsx (hn x (List.mem_of_getElem? hx))
  have cases3 : ∀ {a b c x : CStr} {i : Nat}, [a, b, c][i]? = some x → (i = 0 ∧ x = a) ∨ (i = 1 ∧ x = b) ∨ (i = 2 ∧ x = c) := by
    intro a b c x i hi
    match i, hi with
    | 0, hi => exact Or.inl ⟨rfl, by simpa using hi.symm⟩
    | 1, hi => exact Or.inr (Or.inl ⟨rfl, by simpa using hi.symm⟩)
    | 2, hi => exact Or.inr (Or.inr ⟨rfl, by simpa using hi.symm⟩)
    | k + 3, hi => simp at hi
  constructor
  · refine key _ 1 ⟨str "Predicted", by rw [hcol]; rfl, (sameUpToCase_iff _ _).2 (by decide +kernel)⟩ ?_
    intro i x hi hc
    rw [hcol] at hi
    rw [sameUpToCase_iff] at hc
    rcases cases3 hi with ⟨_, hx⟩ | ⟨hi, _⟩ | ⟨_, hx⟩
    · exact absurd (hx ▸ hc) hf.1
    · exact hi
    · subst hx; exact absurd hc (by decide +kernel)
  · refine key _ 2 ⟨str "Residual", by rw [hcol]; rfl, (sameUpToCase_iff _ _).2 (by decide +kernel)⟩ ?_
    intro i x hi hc
    rw [hcol] at hi
    rw [sameUpToCase_iff] at hc
    rcases cases3 hi with ⟨_, hx⟩ | ⟨_, hx⟩ | ⟨hi, _⟩
    · exact absurd (hx ▸ hc) hf.2
    · subst hx; exact absurd hc (by decide +kernel)
    · exact hi

/-- **C191** (finding). The documented lookup of the observed values by the column name "observed" fails as soon as the data set
has a column name, unless the first regressor happens to be called that. -/
theorem C191_observed_refuted (pw : Option Parts) (lm : Lm) (hv : Bool) (n : Names) (R : Results) (p : Page) (h : estimate pw lm hv n = .ok R)
    (hp : R.pred = some p) (c : CStr) (hc : R.data.col.head? = some c) (h1 : ¬ SameUpToCase (str "observed") c) :
    p.names.find (some (str "observed")) 'c' = .ok (-2) := by
  obtain ⟨hg, hvec, hcol⟩ := pred_good h hp
  have hfn : firstName R.data = c := by
    unfold firstName
    cases hd : R.data.col with
    | nil => rw [hd] at hc; cases hc
    | cons a l => rw [hd] at hc; simpa using hc
  obtain ⟨r, hr⟩ := find_total hg (some (str "observed")) 'c'
  rw [hr]
  rcases C02_find_sound _ _ _ _ hr with ⟨h0, z, hz, hc'⟩ | ⟨_, _, ⟨v, hv', _⟩, _⟩ | ⟨h2, _, _⟩
  · have hz' : z ∈ p.names.col := List.mem_of_getElem? hz
    rw [hcol, hfn] at hz'
    simp only [List.mem_cons, List.not_mem_nil, or_false] at hz'
    rcases hz' with rfl | rfl | rfl
    · exact absurd hc' h1
    · rw [sameUpToCase_iff] at hc'; exact absurd hc' (by decide +kernel)
    · rw [sameUpToCase_iff] at hc'; exact absurd hc' (by decide +kernel)
  · rw [hvec] at hv'; cases hv'
  · rw [h2]

/-- **C191** (finding). An empty first column name (data without a vector) is overrun. -/
theorem C191_empty_first_name_refuted (pw : Option Parts) (lm : Lm) (n : Names) (xs : List CStr) (hn : n.col = [] :: xs) : estimate pw lm false n = .ub := by
  unfold estimate shuffleNames
  rw [if_neg (by decide), hn]
  rfl

/-- **C191** (finding). A vector without a name: the parameters get no names at all, even if every regressor has one. -/
theorem C191_unnamed_vector_refuted (pw : Option Parts) (lm : Lm) (n : Names) (hn : n.vector = none) (R : Results)
    (h : estimate pw lm true n = .ok R) : R.params = alloc := by
  obtain ⟨cp, hs, _, hf⟩ := estimate_ok h
  unfold shuffleNames at hs
  rw [if_pos rfl] at hs
  injection hs with hs
  rw [(finish_ok hf).2.1, ← hs]
  unfold nameParams
  rw [hn]

/-! ## C192: which results there are -/

/-- **C192** (which switches work). The estimation ends properly exactly when: with a parts-wanted group, some of the two parts is
'y' or both are 0; without one, the deprecated switches are not "covariance but no expected values". -/
theorem C192_outcome (pw : Option Parts) (lm : Lm) (hv : Bool) (n : Names) (d : Names) (hd : shuffleNames hv n = .ok d) :
    (∃ R, estimate pw lm hv n = .ok R) ↔
      match pw with
      | some p => p.covariance = 'y' ∨ p.predicted = 'y' ∨ (p.covariance.toNat = 0 ∧ p.predicted.toNat = 0)
      | none => ¬ (lm.wantCov = 'y' ∧ lm.wantExpected ≠ 'y' ∧ lm.wantExpected.toNat ≠ 0) := by
  have hy : truthy 'y' = true := by decide
  unfold estimate
  rw [hd]
  cases pw with
  | none =>
    by_cases h1 : lm.wantCov = 'y' <;> by_cases h2 : lm.wantExpected = 'y' <;> by_cases h3 : lm.wantExpected.toNat = 0 <;>
      simp [solvePages, shortCut, wantsCov, wantsPred, fillsPred, truthy, h1, h2, h3, finish, testPage, rsqStep, Res.bind, nameCov, namePred, blank] <;>
      (try cases d.vector) <;> simp [Res.bind, h2] <;> (try (rw [h2] at h3; revert h3; decide))
  | some p =>
    by_cases h1 : p.covariance = 'y' <;> by_cases h2 : p.predicted = 'y' <;> by_cases h3 : p.predicted.toNat = 0 <;> by_cases h4 : p.covariance.toNat = 0 <;>
      simp [solvePages, shortCut, wantsCov, wantsPred, fillsPred, truthy, h1, h2, h3, h4, finish, testPage, rsqStep, Res.bind, nameCov, namePred, blank] <;>
      (try cases d.vector) <;> simp [Res.bind, h1, h2]

/-- Specification: what the switches say about expected values / the covariance: any non-zero character of a parts-wanted group, else
a 'y' in the linear model's own group. -/
def predOn : Option Parts → Lm → Prop
  | some p, _ => p.predicted.toNat ≠ 0
  | none, lm => lm.wantExpected = 'y'

/-- See `predOn`. -/
def covOn : Option Parts → Lm → Prop
  | some p, _ => p.covariance.toNat ≠ 0
  | none, lm => lm.wantCov = 'y'

theorem solvePages_filled {pw lm hv n R} (h : estimate pw lm hv n = .ok R) :
    (∀ p, R.pred = some p → p.filled = true) ∧ (wantsCov pw lm = true → ∃ p, R.cov = some p ∧ p.filled = true) ∧ R.rsq = R.pred.isSome ∧ R.tests.isSome = wantsCov pw lm ∧
    R.pred.isSome = wantsPred pw lm := by
  obtain ⟨cp, _, hc, hf⟩ := estimate_ok h
  have hf' := hf
  obtain ⟨_, _, hcov, hpred, hts, ht, hr⟩ := finish_ok hf
  refine ⟨?_, ?_, by rw [hr, hpred]; simp, hts, ?_⟩
  · intro p hp
    unfold finish at hf'
    obtain ⟨t, _, h1⟩ := bind_ok_iff.1 hf'
    obtain ⟨r, h2, _⟩ := bind_ok_iff.1 h1
    rw [← hpred, hp] at h2
    unfold rsqStep at h2
    by_cases hq : p.filled = true
    · exact hq
    · simp only at h2; rw [if_neg hq] at h2; cases h2
  · intro hw
    rw [hw] at hts
    obtain ⟨t, ht'⟩ := Option.isSome_iff_exists.1 hts
    have := ht t ht'
    unfold testPage at this
    cases hR : R.cov with
    | none => rw [hR] at this; cases this
    | some q =>
      rw [hR] at this
      refine ⟨q, rfl, ?_⟩
      by_cases hq : q.filled = true
      · exact hq
      · simp only at this; rw [if_neg hq] at this; cases this
  · rw [hpred, Option.isSome_map]
    unfold solvePages at hc
    cases h1 : shortCut pw lm <;> cases h2 : fillsPred pw lm <;> cases h3 : wantsPred pw lm <;> cases h4 : wantsCov pw lm <;>
      simp [h1, h2, h3, h4] at hc <;> subst hc <;> simp

/-- **C192** (what is handed back). Whenever the estimation ends properly, nothing the user is given is left unwritten:
a `<Predicted>` page is there exactly if expected values are switched on, it is filled in, and R² is reported exactly then;
with the covariance switched on there are a filled covariance page and a table of tests. -/
theorem C192_pages (pw : Option Parts) (lm : Lm) (hv : Bool) (n : Names) (R : Results) (h : estimate pw lm hv n = .ok R) :
    (R.pred.isSome ↔ predOn pw lm) ∧
    (R.tests.isSome ↔ covOn pw lm) ∧
    (∀ p, R.pred = some p → p.filled = true) ∧ (R.tests.isSome → ∃ p, R.cov = some p ∧ p.filled = true) ∧ R.rsq = R.pred.isSome := by
  obtain ⟨a, b, c, d, e⟩ := solvePages_filled h
  refine ⟨?_, ?_, a, fun ht => b (d ▸ ht), c⟩
  · rw [e]; cases pw <;> simp [wantsPred, truthy, predOn]
  · rw [d]; cases pw <;> simp [wantsCov, truthy, covOn]

/-- **C192** (defaults). With no switches set, every data set the preparation accepts gives parameters, covariance, tests,
predicted values and R². -/
theorem C192_default (hv : Bool) (n d : Names) (hd : shuffleNames hv n = .ok d) :
    ∃ R, estimate none {} hv n = .ok R ∧ R.cov.isSome ∧ R.pred.isSome ∧ R.tests.isSome ∧ R.rsq = true := by
  obtain ⟨R, h⟩ := (C192_outcome none {} hv n d hd).2 (by simp)
  obtain ⟨a, b, _, c, e⟩ := C192_pages _ _ _ _ _ h
  have ha := a.2 rfl
  have hb := b.2 rfl
  obtain ⟨p, hp, _⟩ := c hb
  exact ⟨R, h, by rw [hp]; rfl, ha, hb, by rw [e]; exact ha⟩

/-- **C192** (finding). The documented way to turn off all auxiliary parts, a parts-wanted group with its default 'n's, does not turn
them off: pages are made but not filled in, and the table of tests is computed from unwritten memory. -/
theorem C192_all_off_refuted (lm : Lm) (hv : Bool) (n : Names) : estimate (some {}) lm hv n = .ub := by
  cases h : shuffleNames hv n with
  | ub => unfold estimate; rw [h]; rfl
  | ok d =>
    have := mt (C192_outcome (some {}) lm hv n d h).1 (by simp)
    cases he : estimate (some {}) lm hv n with
    | ub => rfl
    | ok R => exact absurd ⟨R, he⟩ this

/-- **C192** (finding). Asking for the covariance only ('n' for the predicted values) still produces the `<Predicted>` page and R². -/
theorem C192_covariance_only_refuted (lm : Lm) (hv : Bool) (n d : Names) (hd : shuffleNames hv n = .ok d) :
    ∃ R, estimate (some { covariance := 'y' }) lm hv n = .ok R ∧ R.pred.isSome ∧ R.rsq = true := by
  obtain ⟨R, h⟩ := (C192_outcome (some { covariance := 'y' }) lm hv n d hd).2 (by simp)
  obtain ⟨a, _, _, _, e⟩ := C192_pages _ _ _ _ _ h
  have ha := a.2 (show ('n').toNat ≠ 0 by decide)
  exact ⟨R, h, ha, by rw [e]; exact ha⟩

/-- **C192** (finding). The deprecated pair "covariance, no expected values" dereferences a missing page. -/
theorem C192_no_expected_refuted (hv : Bool) (n : Names) : estimate none { wantExpected := 'n' } hv n = .ub := by
  cases h : shuffleNames hv n with
  | ub => unfold estimate; rw [h]; rfl
  | ok d =>
    have := mt (C192_outcome none { wantExpected := 'n' } hv n d h).1 (by simp)
    cases he : estimate none { wantExpected := 'n' } hv n with
    | ub => rfl
    | ok R => exact absurd ⟨R, he⟩ this

/-- A concrete data set: columns "gpa", "Age", "income", no vector. -/
def exNames : Names := alloc.addAll [str "gpa", str "Age", str "income"] 'c'

/-- The example meets the hypotheses, and looks as the theorems say. -/
theorem ex_ok : ∃ R, estimate none {} false exNames = .ok R ∧ R.params.row = [str "1", str "Age", str "income"] ∧ R.params.find (some (str "age")) 'r' = .ok 1 ∧
    R.data.find (some (str "gpa")) 'c' = .ok (-1) ∧ R.pred.isSome := by
  have hc : exNames.col = str "gpa" :: [str "Age", str "income"] := by decide +kernel
  have hs : shuffleNames false exNames = .ok { (exNames.add (some (str "gpa")) 'v').1 with col := str "1" :: [str "Age", str "income"] } := by decide +kernel
  obtain ⟨R, h, _, h2, _⟩ := C192_default false exNames _ hs
  have N := C191_names_no_vector _ _ exNames (str "gpa") [str "Age", str "income"] hc R h
  obtain ⟨cp, hs', _, hf⟩ := estimate_ok h
  have hd : R.data = { (exNames.add (some (str "gpa")) 'v').1 with col := str "1" :: [str "Age", str "income"] } := by
    rw [hs] at hs'; injection hs' with hs'; exact hs'.symm
  refine ⟨R, h, N.rows, ?_, ?_, h2⟩
  · rw [(finish_ok hf).2.1, hd]; decide +kernel
  · rw [hd]; decide +kernel

example : estimate (some {}) {} false exNames = .ub := C192_all_off_refuted _ _ _
example : shuffleNames true { alloc with vector := some (str "y") } = .ok { alloc with vector := some (str "y") } := rfl

end Apop.OlsNames
