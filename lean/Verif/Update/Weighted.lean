import Mathlib.Probability.StrongLaw
import Mathlib.Probability.ProductMeasure
import Mathlib.Probability.Independence.InfinitePi

/-! # C169: updating by weighted draws from the prior (apop_update.m4.c:226-257)

The branch of `apop_update` for a prior that can only be drawn from. `Θ`: the parameters of the likelihood, as packed in a draw. `p θ`: what `apop_p` gives for the data with the parameters `θ`; `none` is NaN. Exact arithmetic. -/

namespace Apop.Update
open MeasureTheory ProbabilityTheory Filter

variable {Θ : Type*}

/-- The loop, apop_update.m4.c:236-253, on the draws that the prior makes, for `n` rows more: a draw whose likelihood is NaN is thrown out and another is made for the same row. `none`: these draws are too few and the loop goes on. -/
def collect (p : Θ → Option ℝ) : ℕ → List Θ → Option (List (Θ × ℝ))
  | 0, _ => some []
  | _ + 1, [] => none
  | n + 1, θ :: ds => match p θ with
    | none => collect p (n + 1) ds
    | some w => (collect p n ds).map ((θ, w) :: ·)

/-- The branch, apop_update.m4.c:226-257: the first draw only fills the parameters (:233); then the loop; the rows and weights returned are those of the PMF (:254). `periods`: the number of rows, from the MCMC settings. -/
def byDraws (p : Θ → Option ℝ) (periods : ℕ) : List Θ → Option (List (Θ × ℝ))
  | [] => none
  | _ :: ds => collect p periods ds

/-! ### Specification -/

/-- A draw that can be evaluated, with its likelihood. -/
def evaluated (p : Θ → Option ℝ) (θ : Θ) : Option (Θ × ℝ) := (p θ).map fun w => (θ, w)

/-- The likelihood as a number, zero where it is NaN. -/
def lik (p : Θ → Option ℝ) (θ : Θ) : ℝ := (p θ).getD 0

open Classical in
/-- The share of weight on the set `A`. -/
noncomputable def share (A : Set Θ) (rows : List (Θ × ℝ)) : ℝ := ((rows.filter fun r => r.1 ∈ A).map Prod.snd).sum / (rows.map Prod.snd).sum

/-! ### Theorems -/

theorem collect_eq (p : Θ → Option ℝ) (ds : List Θ) : ∀ n, collect p n ds = if n ≤ (ds.filterMap (evaluated p)).length then some ((ds.filterMap (evaluated p)).take n) else none := by
  induction ds with
  | nil => intro n; cases n <;> simp [collect]
  | cons θ ds ih =>
    intro n
    cases n with
    | zero => simp [collect]
    | succ n =>
      cases h : p θ with
      | none =>
        have : evaluated p θ = none := by simp [evaluated, h]
        simp only [collect, h, ih, List.filterMap_cons, this]
      | some w =>
        have : evaluated p θ = some (θ, w) := by simp [evaluated, h]
        simp only [collect, h, ih, List.filterMap_cons, this, List.length_cons, Nat.add_le_add_iff_right, List.take_succ_cons]
        split <;> simp

/-- **The rows**: the first `periods` draws after the very first for which the likelihood can be evaluated, each weighted by its likelihood; the run ends exactly when there have been that many. -/
theorem C169_rows (p : Θ → Option ℝ) (periods : ℕ) (θ₀ : Θ) (ds : List Θ) (rows : List (Θ × ℝ)) :
    byDraws p periods (θ₀ :: ds) = some rows ↔ periods ≤ (ds.filterMap (evaluated p)).length ∧ rows = (ds.filterMap (evaluated p)).take periods := by
  simp only [byDraws, collect_eq]
  split <;> rename_i h <;> simp [h, eq_comm]

/-- A case: the second draw after the first cannot be evaluated. -/
example : byDraws (fun θ : ℕ => if θ = 2 then none else some (θ : ℝ)) 2 [7, 1, 2, 3, 4] = some [(1, 1), (3, 3)] := by
  simp [byDraws, collect]

/-- If the likelihood is NaN for all that the prior draws, the function never returns. -/
theorem C169_never (p : Θ → Option ℝ) (periods : ℕ) (hp : 0 < periods) (ds : List Θ) (h : ∀ θ ∈ ds, p θ = none) : byDraws p periods ds = none := by
  cases ds with
  | nil => rfl
  | cons θ₀ ds =>
    have : ds.filterMap (evaluated p) = [] := by
      rw [List.filterMap_eq_nil_iff]
      intro θ hθ
      simp [evaluated, h θ (List.mem_cons_of_mem _ hθ)]
    simp [byDraws, collect_eq, this]
    omega

theorem collect_sums (p : Θ → Option ℝ) (ds : List Θ) : ∀ n rows, collect p n ds = some rows →
    ∃ m, n ≤ m ∧ m ≤ ds.length ∧ ∀ f : Θ → ℝ, (rows.map fun r => f r.1 * r.2).sum = ((ds.take m).map fun θ => f θ * lik p θ).sum := by
  induction ds with
  | nil =>
    intro n rows h
    cases n with
    | zero => simp [collect] at h; subst h; exact ⟨0, le_refl _, le_refl _, fun _ => rfl⟩
    | succ n => simp [collect] at h
  | cons θ ds ih =>
    intro n rows h
    cases n with
    | zero => simp [collect] at h; subst h; exact ⟨0, le_refl _, Nat.zero_le _, fun _ => rfl⟩
    | succ n =>
      cases hp : p θ with
      | none =>
        simp only [collect, hp] at h
        obtain ⟨m, h1, h2, h3⟩ := ih _ _ h
        refine ⟨m + 1, by omega, by simp; omega, fun f => ?_⟩
        simp [h3, lik, hp]
      | some w =>
        simp only [collect, hp, Option.map_eq_some_iff] at h
        obtain ⟨r, h, rfl⟩ := h
        obtain ⟨m, h1, h2, h3⟩ := ih _ _ h
        refine ⟨m + 1, by omega, by simp; omega, fun f => ?_⟩
        simp only [List.map_cons, List.sum_cons, h3, List.take_succ_cons, lik, hp, Option.getD_some]

theorem share_eq (A : Set Θ) (rows : List (Θ × ℝ)) : share A rows = (rows.map fun r => A.indicator 1 r.1 * r.2).sum / (rows.map fun r => (1 : ℝ) * r.2).sum := by
  unfold share
  congr 1
  · induction rows with
    | nil => rfl
    | cons r rows ih => by_cases h : r.1 ∈ A <;> simp_all
  · simp

theorem sum_take_stream (F : Θ → ℝ) (ω : ℕ → Θ) (N m : ℕ) (h : m ≤ N) : (((((List.range N).map fun i => ω (i + 1))).take m).map F).sum = ∑ i ∈ Finset.range m, F (ω (i + 1)) := by
  rw [← List.map_take, List.take_range, Nat.min_eq_left h, List.map_map, Finset.sum_range]
  rw [← List.sum_ofFn]
  congr 1
  apply List.ext_getElem <;> simp

variable [MeasurableSpace Θ]

/-- Averages of a function of the draws go to its mean. -/
theorem stream_law (π : Measure Θ) [IsProbabilityMeasure π] (F : Θ → ℝ) (hF : Measurable F) (hint : Integrable F π) :
    ∀ᵐ ω ∂Measure.infinitePi (fun _ : ℕ => π), Tendsto (fun m : ℕ => (∑ i ∈ Finset.range m, F (ω (i + 1))) / m) atTop (nhds (∫ θ, F θ ∂π)) := by
  have hpres : ∀ i : ℕ, MeasurePreserving (Function.eval i) (Measure.infinitePi (fun _ : ℕ => π)) π := fun i => measurePreserving_eval_infinitePi (fun _ : ℕ => π) i
  have hind : iIndepFun (fun (i : ℕ) (ω : ℕ → Θ) => F (ω i)) (Measure.infinitePi (fun _ : ℕ => π)) := iIndepFun_infinitePi (P := fun _ : ℕ => π) (X := fun _ => F) fun _ => hF
  have h := strong_law_ae_real (μ := Measure.infinitePi (fun _ : ℕ => π)) (fun i ω => F (ω (i + 1))) ?_ ?_ ?_
  · have e : (Measure.infinitePi (fun _ : ℕ => π))[fun ω => F (ω (0 + 1))] = ∫ θ, F θ ∂π := by
      have h3 := integral_map (μ := Measure.infinitePi (fun _ : ℕ => π)) (hpres 1).measurable.aemeasurable (f := F) hF.aestronglyMeasurable
      rw [(hpres 1).map_eq] at h3
      exact h3.symm
    rw [e] at h
    exact h
  · exact (hpres 1).integrable_comp_of_integrable hint
  · intro i j hij
    exact hind.indepFun (by omega)
  · intro i
    refine ⟨(hF.comp (measurable_pi_apply _)).aemeasurable, (hF.comp (measurable_pi_apply _)).aemeasurable, ?_⟩
    have : ∀ j : ℕ, Measure.map (fun ω : ℕ → Θ => F (ω j)) (Measure.infinitePi (fun _ : ℕ => π)) = Measure.map F π := by
      intro j
      have h3 := Measure.map_map (μ := Measure.infinitePi (fun _ : ℕ => π)) hF (hpres j).measurable
      rw [(hpres j).map_eq] at h3
      exact h3.symm
    rw [this, this]

/-- **The posterior.** With the prior `π`, independent draws, and a likelihood of a finite positive mean: with probability one every call ends, and as the number of rows grows, the weight that the result gives to a set `A` goes to its posterior probability, the integral of the likelihood over `A` divided by the integral over everything. -/
theorem C169_posterior (π : Measure Θ) [IsProbabilityMeasure π] (p : Θ → Option ℝ) (hm : Measurable (lik p)) (hint : Integrable (lik p) π) (hpos : 0 < ∫ θ, lik p θ ∂π)
    (A : Set Θ) (hA : MeasurableSet A) :
    ∀ᵐ ω ∂Measure.infinitePi (fun _ : ℕ => π), (∀ n, ∃ N, byDraws p n ((List.range N).map ω) ≠ none) ∧
      ∀ (N : ℕ → ℕ) (rows : ℕ → List (Θ × ℝ)), (∀ n, byDraws p n ((List.range (N n)).map ω) = some (rows n)) →
        Tendsto (fun n => share A (rows n)) atTop (nhds ((∫ θ in A, lik p θ ∂π) / ∫ θ, lik p θ ∂π)) := by
  have hmA : Measurable fun θ => A.indicator 1 θ * lik p θ := (measurable_one.indicator hA).mul hm
  have eA : (fun θ => A.indicator 1 θ * lik p θ) = A.indicator (lik p) := by
    ext θ
    by_cases h : θ ∈ A <;> simp [h]
  have hiA : Integrable (fun θ => A.indicator 1 θ * lik p θ) π := by rw [eA]; exact hint.indicator hA
  have e2 : ∫ θ, A.indicator 1 θ * lik p θ ∂π = ∫ θ in A, lik p θ ∂π := by
    rw [show (fun θ => A.indicator 1 θ * lik p θ) = A.indicator (lik p) from eA, integral_indicator hA]
  filter_upwards [stream_law π (lik p) hm hint, stream_law π _ hmA hiA] with ω h1 h2
  rw [e2] at h2
  have hdraws : ∀ N, (List.range (N + 1)).map ω = ω 0 :: (List.range N).map fun i => ω (i + 1) := by
    intro N
    rw [List.range_succ_eq_map]
    simp [Function.comp_def]
  constructor
  · -- infinitely many draws have a positive likelihood
    intro n
    have hinf : ∀ k, ∃ i ≥ k, p (ω (i + 1)) ≠ none := by
      intro k
      by_contra hk
      push Not at hk
      have hz : ∀ m ≥ k, ∑ i ∈ Finset.range m, lik p (ω (i + 1)) = ∑ i ∈ Finset.range k, lik p (ω (i + 1)) := by
        intro m hmk
        induction m, hmk using Nat.le_induction with
        | base => rfl
        | succ m hmk ih => rw [Finset.sum_range_succ, ih, lik, hk m hmk]; simp
      have h3 : Tendsto (fun m : ℕ => (∑ i ∈ Finset.range m, lik p (ω (i + 1))) / m) atTop (nhds 0) := by
        have h4 := tendsto_const_div_atTop_nhds_zero_nat (∑ i ∈ Finset.range k, lik p (ω (i + 1)))
        refine h4.congr' ?_
        filter_upwards [eventually_ge_atTop k] with m hmk
        rw [hz m hmk]
      exact hpos.ne' (tendsto_nhds_unique h1 h3)
    have hlen : ∀ n, ∃ N, n ≤ (((List.range N).map fun i => ω (i + 1)).filterMap (evaluated p)).length := by
      intro n
      induction n with
      | zero => exact ⟨0, Nat.zero_le _⟩
      | succ n ih =>
        obtain ⟨N, hN⟩ := ih
        obtain ⟨i, hi, hp⟩ := hinf N
        refine ⟨i + 1, ?_⟩
        have hmono : (((List.range N).map fun i => ω (i + 1)).filterMap (evaluated p)).length ≤ (((List.range i).map fun i => ω (i + 1)).filterMap (evaluated p)).length := by
          apply List.Sublist.length_le
          apply List.Sublist.filterMap
          apply List.Sublist.map
          exact List.range_sublist.2 hi
        rw [List.range_succ, List.map_append, List.filterMap_append, List.length_append]
        obtain ⟨w, hw⟩ := Option.ne_none_iff_exists'.1 hp
        have : (List.filterMap (evaluated p) (List.map (fun i => ω (i + 1)) [i])).length = 1 := by simp [evaluated, hw]
        omega
    obtain ⟨N, hN⟩ := hlen n
    refine ⟨N + 1, ?_⟩
    rw [hdraws]
    simp only [byDraws, collect_eq, if_pos hN]
    simp
  · intro N rows hrows
    have hex : ∀ n, ∃ m, n ≤ m ∧ share A (rows n) = ((∑ i ∈ Finset.range m, A.indicator 1 (ω (i + 1)) * lik p (ω (i + 1))) / m) / ((∑ i ∈ Finset.range m, lik p (ω (i + 1))) / m) := by
      intro n
      have h3 := hrows n
      cases hN : N n with
      | zero => rw [hN] at h3; simp [byDraws] at h3
      | succ M =>
        rw [hN, hdraws] at h3
        obtain ⟨m, hm1, hm2, hf⟩ := collect_sums p _ _ _ h3
        have hm3 : m ≤ M := by simpa using hm2
        refine ⟨m, hm1, ?_⟩
        rw [share_eq, hf, hf (fun _ => 1), sum_take_stream _ _ _ _ hm3, sum_take_stream _ _ _ _ hm3]
        simp only [one_mul]
        rcases Nat.eq_zero_or_pos m with rfl | hm4
        · simp
        · have : (m : ℝ) ≠ 0 := by positivity
          rw [div_div_div_cancel_right₀ this]
    choose m hmn hs using hex
    have hmt : Tendsto m atTop atTop := tendsto_atTop_mono hmn tendsto_id
    simp only [hs]
    exact (h2.comp hmt).div (h1.comp hmt) hpos.ne'

/-- A case: the prior puts even chances on two parameters, the likelihood is NaN at the first: all the weight goes to the second. -/
example : (0 : ℝ) < lik (fun b : Bool => if b then some (1 / 4) else none) true ∧ lik (fun b : Bool => if b then some (1 / 4 : ℝ) else none) false = 0 := by
  simp [lik]

/-- A prior, and a likelihood that is NaN in places, with a positive mean. -/
example : 0 < ∫ b, lik (fun b : Bool => if b then some (1 / 4) else none) b ∂(Measure.dirac true) := by
  simp [integral_dirac, lik]

end Apop.Update
