import Verif.Opt.Bootstrap
import Verif.Asst.Model
import Verif.Name.Model

/-! # C203: the covariance pages of the Poisson and Bernoulli estimates

The Poisson's estimate bootstraps its variance, and the bootstrap calls the estimate again; the `covariance` switch of the `apop_parts_wanted` group is what ends this. A model is its switch (`none`: no such group), its parameter and the pages after it. -/

namespace Apop.BootCov
variable {R K β : Type}

/-! ## The model -/

/-- A model: the `covariance` switch of its `apop_parts_wanted` group, if it has one; the parameter, where `none` is a NaN, once there; the pages after the parameters, by title. -/
structure M (K β : Type) where
  want : Option Bool
  param : Option (Option K)
  pages : List (CStr × β)
  deriving DecidableEq

/-- `Apop_settings_add_group(m, apop_parts_wanted)`, apop_settings.c:75-108 (C24): a group there before is replaced. The switches begin as 'n', apop_mle.m4.c:43-48. -/
def addGroup (m : M K β) : M K β := { m with want := some false }

/-- `Apop_settings_rm_group`, apop_settings.c:51-68 (C24). -/
def rmGroup (m : M K β) : M K β := { m with want := none }

/-- The title of the covariance page, "<Covariance>". -/
def covTitle : CStr := [60, 67, 111, 118, 97, 114, 105, 97, 110, 99, 101, 62]

/-- `apop_data_add_page`, apop_data.m4.c:1317-1329 (C05): at the end. -/
def addPage (m : M K β) (b : β) : M K β := { m with pages := m.pages ++ [(covTitle, b)] }

/-- `apop_data_get_page(.., "<Covariance>")`, apop_data.m4.c:1298-1304 (C05), on the pages after the first: the first that matches. -/
def getCov (m : M K β) : Option β := (m.pages.find? fun p => caseEq p.1 covTitle).map Prod.snd

/-- A value and the number of calls to the estimate method that it took. -/
structure Counted (α : Type) where
  val : α
  calls : ℕ
  deriving DecidableEq

/-- The estimations of the bootstrap, apop_bootstrap.m4.c:143-150: one for each draw, whichever estimates are NaN (`ignore_nans` is 'n' by default). -/
def estEach (f : List R → Res (Counted (Option K))) (rows : List R) (rnd : ℕ → ℕ) : ℕ → Res (Counted Unit)
  | 0 => .ok ⟨(), 0⟩
  | n + 1 => (estEach f rows rnd n).bind fun c => (f (Boot.sample rows rnd n)).bind fun x => .ok ⟨(), c.calls + x.calls⟩

/-- The value, if there is one. -/
def valOf (r : Res (Counted (Option K))) : Option K :=
  match r with
  | .ok c => c.val
  | .ub => none

/-- `apop_bootstrap_cov`, apop_bootstrap.m4.c:123-182, with defaults: the model of C90, which takes estimations that always return, after estimations that do or do not. `cov` is the covariance (C60) of what is kept. -/
def bootCov (cov : Boot.Out K → β) (f : List R → Res (Counted (Option K))) (rows : List R) (rnd : ℕ → ℕ) (iters : ℕ) : Res (Counted β) :=
  (estEach f rows rnd iters).bind fun c => (Boot.bootstrap (fun r => [valOf (f r)]) rows rnd iters false).bind fun o => .ok ⟨cov o, c.calls⟩

/-- The parameter of a counted model. -/
def paramOf (c : Counted (M K β)) : Res (Counted (Option K)) :=
  match c.val.param with
  | some x => .ok ⟨x, c.calls⟩
  | none => .ub

/-- The switch's setting before the bootstrap, model/apop_poisson.c:51-52. -/
def decline (m : M K β) : M K β :=
  match m.want with
  | none => addGroup m
  | some _ => { m with want := some false }

/-- The setting after it, lines 56-57, given what it was. -/
def restore (was : Option Bool) (m : M K β) : M K β :=
  match was with
  | none => rmGroup m
  | some _ => { m with want := some true }

/-- `!p || p->covariance=='y'`, line 50. -/
def wanted (m : M K β) : Bool :=
  match m.want with
  | none => true
  | some b => b

/-- `poisson_estimate`, model/apop_poisson.c:42-58, with `self` for `apop_estimate` of a model like it. -/
def body (cov : Boot.Out K → β) (mean : List R → Option K) (rnd : ℕ → ℕ) (iters : ℕ) (self : M K β → List R → Res (Counted (M K β))) (m : M K β) (rows : List R) : Res (Counted (M K β)) :=
  let m := { m with param := some (mean rows) }
  if wanted m then
    let m' := decline m
    (bootCov cov (fun r => (self (addGroup m') r).bind paramOf) rows rnd iters).bind fun b => .ok ⟨restore m.want (addPage m' b.val), b.calls + 1⟩
  else .ok ⟨m, 1⟩

/-- `apop_estimate` of a Poisson, apop_model.m4.c:229-235: the model is copied with settings, parameters and pages, and the method called. The number bounds the calls within calls; with none left the stack overflows (undefined). All calls are given the same random numbers. -/
def estimate (cov : Boot.Out K → β) (mean : List R → Option K) (rnd : ℕ → ℕ) (iters : ℕ) : ℕ → M K β → List R → Res (Counted (M K β))
  | 0 => fun _ _ => .ub
  | n + 1 => body cov mean rnd iters (estimate cov mean rnd iters n)

/-- `bernoulli_estimate`, model/apop_bernoulli.c:31-41: no settings are read. `p` gives the share of nonzeros and `var p` is `p*(1-p)`. -/
def bernoulli (var : K → K) (p : List R → K) (m : M K K) (rows : List R) : M K K := addPage { m with param := some (some (p rows)) } (var (p rows))

/-! ## Specification -/

/-- The model asks for the covariance: it has no `apop_parts_wanted` group, or one with `covariance` 'y'. -/
def Asks (m : M K β) : Prop := m.want = none ∨ m.want = some true

/-- What the bootstrap keeps of the means of the samples. -/
def bootMeans (mean : List R → Option K) (rows : List R) (rnd : ℕ → ℕ) (iters : ℕ) : Boot.Out K := ⟨some ((List.range iters).map fun t => some [mean (Boot.sample rows rnd t)]), none⟩

/-! ## Proofs -/

theorem wanted_iff (m : M K β) : wanted m = true ↔ Asks m := by
  unfold wanted Asks
  rcases m.want with _ | b <;> simp

/-- A model that declined is estimated without further calls. -/
theorem estimate_declined (cov : Boot.Out K → β) (mean : List R → Option K) (rnd : ℕ → ℕ) (iters n : ℕ) (m : M K β) (h : ¬ Asks m) (rows : List R) :
    estimate cov mean rnd iters (n + 1) m rows = .ok ⟨{ m with param := some (mean rows) }, 1⟩ := by
  have : ¬ wanted { m with param := some (mean rows) } = true := fun hw => h ((wanted_iff _).1 hw)
  show body cov mean rnd iters (estimate cov mean rnd iters n) m rows = _
  unfold body
  simp only []
  rw [if_neg this]

theorem estEach_eq (f : List R → Res (Counted (Option K))) (g : List R → Option K) (hf : ∀ r, f r = .ok ⟨g r, 1⟩) (rows : List R) (rnd : ℕ → ℕ) :
    ∀ n, estEach f rows rnd n = .ok ⟨(), n⟩
  | 0 => rfl
  | n + 1 => by simp [estEach, estEach_eq f g hf rows rnd n, hf, Res.bind]

theorem restore_decline (m : M K β) (h : Asks m) (b : β) : restore m.want (addPage (decline m) b) = addPage m b := by
  obtain ⟨w, p, pg⟩ := m
  rcases h with h | h <;> simp only at h <;> subst h <;> rfl

/-- **C203 (Poisson).** Estimating a Poisson ends, with calls nested at most two deep, whatever the settings: if the covariance is asked for, after one call of the estimate method for the data and one for each of the bootstrap's iterations, and then the result is the given model with the data's mean as parameter and the covariance of the samples' means as a page at the end, its settings as they were. -/
theorem C203_poisson (cov : Boot.Out K → β) (mean : List R → Option K) (rnd : ℕ → ℕ) (iters : ℕ) (hi : 0 < iters) (m : M K β) (ha : Asks m) (rows : List R) (hr : ∀ k, rnd k < rows.length)
    (hm : ∀ r : List R, r ≠ [] → mean r ≠ none) (n : ℕ) (hn : 2 ≤ n) :
    estimate cov mean rnd iters n m rows = .ok ⟨{ m with param := some (mean rows), pages := m.pages ++ [(covTitle, cov (bootMeans mean rows rnd iters))] }, iters + 1⟩ := by
  obtain ⟨n, rfl⟩ : ∃ k, n = k + 2 := ⟨n - 2, by omega⟩
  have hne : rows ≠ [] := by rintro rfl; simpa using hr 0
  have ha' : Asks { m with param := some (mean rows) } := ha
  have hf : ∀ r : List R, (estimate cov mean rnd iters (n + 1) (addGroup (decline { m with param := some (mean rows) })) r).bind paramOf = .ok ⟨mean r, 1⟩ := by
    intro r
    rw [estimate_declined cov mean rnd iters n (addGroup (decline { m with param := some (mean rows) })) (by simp [Asks, addGroup]) r]; rfl
  have hb := Boot.C90_clean (K := K) (fun r => [mean r]) rows rnd hr iters hi false (by
    intro t _ x hx
    simp only [List.mem_singleton] at hx
    subst hx
    refine hm _ fun h0 => hne ?_
    have hl := (Boot.C90_sample rows rnd hr t).1
    rw [h0] at hl
    exact List.length_eq_zero_iff.1 hl.symm)
  show body cov mean rnd iters (estimate cov mean rnd iters (n + 1)) m rows = _
  generalize estimate cov mean rnd iters (n + 1) = self at hf ⊢
  unfold body
  simp only []
  rw [if_pos ((wanted_iff _).2 ha')]
  unfold bootCov
  rw [estEach_eq _ mean hf]
  have hv : (fun r : List R => [valOf ((self (addGroup (decline { m with param := some (mean rows) })) r).bind paramOf)]) = fun r => [mean r] := by
    funext r; rw [hf r]; rfl
  rw [hv, hb]
  simp only [Res.bind]
  simp only [Boot.estimates, List.map_map]
  rw [restore_decline _ ha']
  rfl

/-- **C203 (declined).** With a group whose `covariance` is not 'y' there is a single call, the parameter is the data's mean, and neither pages nor settings change. -/
theorem C203_declined (cov : Boot.Out K → β) (mean : List R → Option K) (rnd : ℕ → ℕ) (iters : ℕ) (m : M K β) (ha : m.want = some false) (rows : List R) (n : ℕ) (hn : 1 ≤ n) :
    estimate cov mean rnd iters n m rows = .ok ⟨{ m with param := some (mean rows) }, 1⟩ := by
  obtain ⟨n, rfl⟩ : ∃ k, n = k + 1 := ⟨n - 1, by omega⟩
  exact estimate_declined cov mean rnd iters n m (by simp [Asks, ha]) rows

theorem getCov_append (m : M K β) (b : β) : getCov (addPage m b) = some ((getCov m).getD b) := by
  unfold getCov addPage
  rw [List.find?_append]
  cases h : m.pages.find? fun p => caseEq p.1 covTitle with
  | none => simp [show caseEq covTitle covTitle = true by decide +kernel]
  | some q => simp

/-- **C203 (the page found).** Asked for, the covariance page of the estimate of a model without one is that of the samples' means of the data. -/
theorem C203_page (cov : Boot.Out K → β) (mean : List R → Option K) (rnd : ℕ → ℕ) (iters : ℕ) (hi : 0 < iters) (m : M K β) (ha : Asks m) (h0 : getCov m = none) (rows : List R) (hr : ∀ k, rnd k < rows.length)
    (hm : ∀ r : List R, r ≠ [] → mean r ≠ none) :
    ∃ m' c, estimate cov mean rnd iters 2 m rows = .ok ⟨m', c⟩ ∧ getCov m' = some (cov (bootMeans mean rows rnd iters)) ∧ m'.param = some (mean rows) := by
  refine ⟨_, _, C203_poisson cov mean rnd iters hi m ha rows hr hm 2 (by omega), ?_, rfl⟩
  have := getCov_append { m with param := some (mean rows) } (cov (bootMeans mean rows rnd iters))
  unfold addPage at this
  rw [this]
  have : getCov { m with param := some (mean rows) } = getCov m := rfl
  rw [this, h0]; rfl

/-- **C203 (refuted: an estimated model estimated again).** The parameter is then the new data's and the covariance page found is that of the old data. -/
theorem C203_again_refuted (cov : Boot.Out K → β) (mean : List R → Option K) (rnd rnd' : ℕ → ℕ) (iters : ℕ) (hi : 0 < iters) (m : M K β) (ha : Asks m) (h0 : getCov m = none) (rows rows' : List R)
    (hr : ∀ k, rnd k < rows.length) (hr' : ∀ k, rnd' k < rows'.length) (hm : ∀ r : List R, r ≠ [] → mean r ≠ none) :
    ∃ m1 c1 m2 c2, estimate cov mean rnd iters 2 m rows = .ok ⟨m1, c1⟩ ∧ estimate cov mean rnd' iters 2 m1 rows' = .ok ⟨m2, c2⟩ ∧ m2.param = some (mean rows') ∧ getCov m2 = some (cov (bootMeans mean rows rnd iters)) := by
  obtain ⟨m1, c1, h1, hg, _⟩ := C203_page cov mean rnd iters hi m ha h0 rows hr hm
  have e1 := C203_poisson cov mean rnd iters hi m ha rows hr hm 2 (by omega)
  rw [e1] at h1
  simp only [Res.ok.injEq, Counted.mk.injEq] at h1
  have ha1 : Asks m1 := by rw [← h1.1]; exact ha
  refine ⟨m1, c1, _, _, by rw [e1, ← h1.1, ← h1.2], C203_poisson cov mean rnd' iters hi m1 ha1 rows' hr' hm 2 (by omega), rfl, ?_⟩
  have := getCov_append { m1 with param := some (mean rows') } (cov (bootMeans mean rows' rnd' iters))
  unfold addPage at this
  rw [this]
  have : getCov { m1 with param := some (mean rows') } = getCov m1 := rfl
  rw [this, hg]; rfl

/-- **C203 (Bernoulli).** The covariance page found after the estimate of a model without one holds `p(1-p)` for the estimated `p`. -/
theorem C203_bernoulli (var : K → K) (p : List R → K) (m : M K K) (h0 : getCov m = none) (rows : List R) :
    (bernoulli var p m rows).param = some (some (p rows)) ∧ getCov (bernoulli var p m rows) = some (var (p rows)) := by
  refine ⟨rfl, ?_⟩
  unfold bernoulli
  rw [getCov_append]
  have : getCov { m with param := some (some (p rows)) } = getCov m := rfl
  rw [this, h0]; rfl

/-- **C203 (refuted: Bernoulli estimated again).** The page found is that of the first estimate. -/
theorem C203_bernoulli_again_refuted (var : K → K) (p : List R → K) (m : M K K) (h0 : getCov m = none) (rows rows' : List R) :
    (bernoulli var p (bernoulli var p m rows) rows').param = some (some (p rows')) ∧ getCov (bernoulli var p (bernoulli var p m rows) rows') = some (var (p rows)) := by
  refine ⟨rfl, ?_⟩
  have h1 := (C203_bernoulli var p m h0 rows).2
  rw [bernoulli, getCov_append]
  have : getCov { bernoulli var p m rows with param := some (some (p rows')) } = getCov (bernoulli var p m rows) := rfl
  rw [this, h1]; rfl

/-! ## Cases -/

/-- The mean of counts, as an integer, NaN for no data. -/
def meanEx (r : List ℕ) : Option ℕ := if r = [] then none else some (r.sum / r.length)

/-- A Poisson as shipped, with data 2, 4, 9 and draws 0, 1, 2, 0, ...: one page, four calls. -/
example : estimate (β := Boot.Out ℕ) id meanEx (fun k => k / 2 % 3) 3 2 ⟨none, none, []⟩ [2, 4, 9] =
    .ok ⟨⟨none, some (some 5), [(covTitle, ⟨some [some [some 2], some [some 7], some [some 2]], none⟩)]⟩, 4⟩ := by decide +kernel

/-- The theorem's hypotheses are met there. -/
example : Asks (⟨none, none, []⟩ : M ℕ (Boot.Out ℕ)) ∧ getCov (⟨none, none, []⟩ : M ℕ (Boot.Out ℕ)) = none ∧ (∀ k, (fun k => k / 2 % 3) k < [2, 4, 9].length) ∧ ∀ r : List ℕ, r ≠ [] → meanEx r ≠ none :=
  ⟨Or.inl rfl, rfl, fun k => Nat.mod_lt _ (by simp), fun r h => by simp [meanEx, h]⟩

/-- Without the switch, a depth of one call is not enough: the bootstrap does call the estimation. -/
example : estimate (β := Boot.Out ℕ) id meanEx (fun k => k / 2 % 3) 3 1 ⟨some true, none, []⟩ [2, 4, 9] = .ub := by decide +kernel

/-- With 'y' asked for, the switch is 'y' again after. -/
example : (estimate (β := Boot.Out ℕ) id meanEx (fun k => k / 2 % 3) 3 2 ⟨some true, none, []⟩ [2, 4, 9]) =
    .ok ⟨⟨some true, some (some 5), [(covTitle, ⟨some [some [some 2], some [some 7], some [some 2]], none⟩)]⟩, 4⟩ := by decide +kernel

end Apop.BootCov
