import Verif.Dist.LogLik
import Mathlib.Analysis.Complex.ExponentialBounds

/-! # C76: the closed-form estimates maximise the likelihood -/

namespace Apop.Dist
open Real Stats

/-! ## The models -/

/-- `vmean` as in model/apop_normal.c:58 and model/apop_gamma.c:100: zero without a vector. -/
noncomputable def vmean (d : D) : ℝ := if d.vsize = 0 then 0 else gslMean (d.vec.getD [])

/-- `vvar`, the sample variance; `none` is NaN. -/
noncomputable def vvar (d : D) : Option ℝ := if d.vsize = 0 then some 0 else vectorVar d.vec none

/-- `mmean` and `mvar`, `apop_matrix_mean_and_var`: zero without a matrix. -/
noncomputable def mmv (d : D) : ℝ × ℝ := if d.msize1 = 0 then (0, 0) else matrixMeanVar ((d.mat.map (·.rows)).getD [])

/-- `exponential_estimate`, model/apop_exponential.c:56-57. The conditional operator binds less tightly than `+`: the matrix is looked at only if there is no vector. -/
noncomputable def expoEst (d : D) : ℝ :=
  (if d.vsize ≠ 0 then d.vsize * vmean d else if 0 + d.msize1 ≠ 0 then d.msize1 * d.msize2 * matrixMean ((d.mat.map (·.rows)).getD []) else 0) / d.tsize

/-- `data_mean`, model/apop_poisson.c:29-35. -/
noncomputable def poissonEst (d : D) : ℝ :=
  if d.vsize ≠ 0 ∧ d.msize1 = 0 then vmean d
  else if d.vsize = 0 ∧ d.msize1 ≠ 0 then matrixMean ((d.mat.map (·.rows)).getD [])
  else matrixMean ((d.mat.map (·.rows)).getD []) * (d.msize1 * d.msize2) / d.tsize + vmean d * d.vsize / d.tsize

/-- `bernoulli_estimate`, model/apop_bernoulli.c:31-34. -/
noncomputable def bernoulliEst (d : D) : ℝ := d.mapSum (fun x => if x ≠ 0 then 1 else 0) / d.tsize

/-- `get_mu_var`, model/apop_normal.c:54-77: the mean and the variance, which is `none` for NaN. With a vector and a matrix both, the loop of lines 73-74 asks for row -1 of the matrix, which the GSL's range check stops. -/
noncomputable def muVar (d : D) : Res (ℝ × Option ℝ) :=
  let mean := (mmv d).1 * (d.msize1 * d.msize2 / d.tsize) + vmean d * (d.vsize / d.tsize)
  if d.vsize = 0 ∧ d.msize1 = 0 then .ok (mean, some 0)
  else if d.vsize ≠ 0 ∧ d.msize1 = 0 then .ok (mean, vvar d)
  else if d.vsize = 0 ∧ d.msize1 ≠ 0 then .ok (mean, some (mmv d).2)
  else .ub

/-- `normal_estimate`, model/apop_normal.c:84-86: mean and standard deviation. -/
noncomputable def normalEst (d : D) : Res (ℝ × Option ℝ) := do
  let (mean, var) ← muVar d
  .ok (mean, var.map sqrt)

/-! ## Specification -/

/-- The mean of all the numbers. -/
noncomputable def mean (d : D) : ℝ := d.cells.sum / d.cells.length

/-- The mean squared deviation of all the numbers. -/
noncomputable def msd (d : D) : ℝ := (d.cells.map fun x => (x - mean d) ^ 2).sum / d.cells.length

/-- The data is in a vector only, or in a matrix only, and there is some. -/
structure OnePart (d : D) : Prop where
  wf : d.WF
  ne : d.cells ≠ []
  one : d.vec = none ∨ d.mat = none

/-! ## Proofs -/

theorem OnePart.pos {d : D} (h : OnePart d) : (0 : ℝ) < d.cells.length := by
  have := List.length_pos_iff.2 h.ne; exact_mod_cast this

theorem vec_only {v : List ℝ} : (⟨some v, none⟩ : D).vsize = v.length ∧ (⟨some v, none⟩ : D).msize1 = 0 ∧ (⟨some v, none⟩ : D).tsize = v.length ∧ (⟨some v, none⟩ : D).cells = v := by
  simp [D.vsize, D.msize1, D.msize2, D.tsize, D.cells]

theorem mat_only {m : Mat ℝ} : (⟨none, some m⟩ : D).vsize = 0 ∧ (⟨none, some m⟩ : D).msize1 = m.size1 ∧ (⟨none, some m⟩ : D).msize2 = m.cols ∧ (⟨none, some m⟩ : D).cells = m.rows.flatten := by
  simp [D.vsize, D.msize1, D.msize2, D.cells]

/-- One part: a non-empty vector or a matrix with elements. -/
theorem OnePart.cases {d : D} (h : OnePart d) : (∃ v, v ≠ [] ∧ d = ⟨some v, none⟩) ∨ (∃ m : Mat ℝ, m.WF ∧ m.rows.flatten ≠ [] ∧ m.size1 ≠ 0 ∧ d = ⟨none, some m⟩) := by
  obtain ⟨vec, mat⟩ := d
  have hne := h.ne
  rcases h.one with h1 | h1
  · simp only at h1; subst h1
    cases mat with
    | none => simp [D.cells] at hne
    | some m =>
      refine Or.inr ⟨m, h.wf m rfl, by simpa [D.cells] using hne, ?_, rfl⟩
      intro h0
      apply hne
      simp only [Mat.size1, List.length_eq_zero_iff] at h0
      simp [D.cells, h0]
  · simp only at h1; subst h1
    cases vec with
    | none => simp [D.cells] at hne
    | some v => exact Or.inl ⟨v, by simpa [D.cells] using hne, rfl⟩

theorem expoEst_eq {d : D} (h : OnePart d) : expoEst d = mean d := by
  rcases h.cases with ⟨v, hv, rfl⟩ | ⟨m, hm, hne, h1, rfl⟩
  · have hl : v.length ≠ 0 := by rwa [ne_eq, List.length_eq_zero_iff]
    have hl' : (v.length : ℝ) ≠ 0 := by exact_mod_cast hl
    obtain ⟨e1, e2, e3, e4⟩ := vec_only (v := v)
    simp only [expoEst, e1, e3, mean, e4, ne_eq, hl, not_false_eq_true, if_true, vmean, if_false, gslMean, Option.getD_some]
    field_simp
  · obtain ⟨e1, e2, e3, e4⟩ := mat_only (m := m)
    have ht : (⟨none, some m⟩ : D).tsize = m.rows.flatten.length := by rw [tsize_eq h.wf, e4]
    have hfl := flatten_length hm
    have hl : (m.rows.flatten.length : ℝ) ≠ 0 := by rw [Nat.cast_ne_zero, ne_eq, List.length_eq_zero_iff]; exact hne
    have hl2 : (m.size1 : ℝ) * m.cols = m.rows.flatten.length := by rw [hfl]; push_cast; rfl
    simp only [expoEst, e1, e2, e3, mean, e4, ne_eq, not_true_eq_false, if_false, zero_add, h1, not_false_eq_true, if_true, Option.map_some, Option.getD_some, ht]
    rw [C51_matrix_mean _ hne, hl2]
    field_simp

/-- **C76 (exponential).** The estimate is the mean, and no other parameter is more likely: for data in a vector or in a matrix. -/
theorem C76_exponential (d : D) (h : OnePart d) (hpos : 0 < mean d) (mu : ℝ) (hmu : 0 < mu) : expoEst d = mean d ∧ expoLl mu d ≤ expoLl (expoEst d) d := by
  refine ⟨expoEst_eq h, ?_⟩
  rw [expoEst_eq h]
  have hn := h.pos
  have hs : d.cells.sum = d.cells.length * mean d := by rw [mean]; field_simp
  have hlog : log (mean d / mu) ≤ mean d / mu - 1 := log_le_sub_one_of_pos (by positivity)
  rw [log_div hpos.ne' hmu.ne'] at hlog
  simp only [expoLl, total_eq, tsize_eq h.wf, hs]
  have e1 : -(d.cells.length * mean d) / mu = -(d.cells.length * (mean d / mu)) := by ring
  have e2 : -(d.cells.length * mean d) / mean d = -(d.cells.length : ℝ) := by field_simp
  rw [e1, e2]
  nlinarith

/-- With a vector and a matrix, the estimate of the exponential leaves the matrix out: 1/2 for the numbers 1 and 3, whose mean, 2, is more likely. -/
theorem C76_exponential_both_refuted : let d : D := ⟨some [1], some ⟨[[3]], 1⟩⟩
    expoEst d = 1 / 2 ∧ mean d = 2 ∧ expoLl (expoEst d) d < expoLl 2 d := by
  intro d
  have e1 : expoEst d = 1 / 2 := by norm_num [d, expoEst, D.vsize, D.msize1, D.msize2, D.tsize, vmean, gslMean, Mat.size1]
  refine ⟨e1, by norm_num [d, mean, D.cells], ?_⟩
  rw [e1]
  have hl2 : log 2 ≤ 2 - 1 := log_le_sub_one_of_pos (by norm_num)
  have hh : log (1 / 2) = -log 2 := by rw [one_div, log_inv]
  simp only [expoLl, total_eq, hh]
  norm_num [d, D.cells, D.vsize, D.msize1, D.msize2, D.tsize, Mat.size1]
  linarith

theorem poissonEst_eq {d : D} (hw : d.WF) (hne : d.cells ≠ []) : poissonEst d = mean d := by
  by_cases h : OnePart d
  · rcases h.cases with ⟨v, hv, rfl⟩ | ⟨m, hm, hne, h1, rfl⟩
    · have hl : v.length ≠ 0 := by rwa [ne_eq, List.length_eq_zero_iff]
      obtain ⟨e1, e2, e3, e4⟩ := vec_only (v := v)
      simp [poissonEst, e1, e2, mean, e4, hv, vmean, gslMean]
    · obtain ⟨e1, e2, e3, e4⟩ := mat_only (m := m)
      simp only [poissonEst, e1, e2, ne_eq, not_true_eq_false, false_and, if_false, h1, not_false_eq_true, and_self, if_true, Option.map_some, Option.getD_some, mean, e4]
      exact C51_matrix_mean _ hne
  · obtain ⟨vec, mat⟩ := d
    have : vec ≠ none ∧ mat ≠ none := by
      constructor
      · rintro rfl; exact h ⟨hw, hne, Or.inl rfl⟩
      · rintro rfl; exact h ⟨hw, hne, Or.inr rfl⟩
    obtain ⟨⟨v, rfl⟩, ⟨m, rfl⟩⟩ := And.intro (Option.ne_none_iff_exists'.1 this.1) (Option.ne_none_iff_exists'.1 this.2)
    have hm : m.WF := hw m rfl
    have hfl := flatten_length hm
    have hl2 : (m.size1 : ℝ) * m.cols = m.rows.flatten.length := by rw [hfl]; push_cast; rfl
    have ht := tsize_eq hw
    have hc : (⟨some v, some m⟩ : D).cells = v ++ m.rows.flatten := by simp [D.cells]
    have hsz : (⟨some v, some m⟩ : D).vsize = v.length ∧ (⟨some v, some m⟩ : D).msize1 = m.size1 ∧ (⟨some v, some m⟩ : D).msize2 = m.cols := ⟨rfl, rfl, rfl⟩
    rw [hc] at ht hne
    have hN : ((v.length + m.rows.flatten.length : ℕ) : ℝ) ≠ 0 := by
      rw [Nat.cast_ne_zero]; intro h0; apply hne; rw [← List.length_eq_zero_iff, List.length_append]; exact h0
    have hv : vmean ⟨some v, some m⟩ * v.length = v.sum := by
      unfold vmean
      by_cases h0 : v.length = 0
      · rw [if_pos (by rw [hsz.1]; exact h0)]; rw [List.length_eq_zero_iff] at h0; simp [h0]
      · have : (v.length : ℝ) ≠ 0 := by exact_mod_cast h0
        rw [if_neg (by rw [hsz.1]; exact h0), gslMean, Option.getD_some]; field_simp
    have hmm : matrixMean m.rows * m.rows.flatten.length = m.rows.flatten.sum := by
      by_cases h0 : m.rows.flatten = []
      · simp [h0]
      · have : (m.rows.flatten.length : ℝ) ≠ 0 := by rw [Nat.cast_ne_zero, ne_eq, List.length_eq_zero_iff]; exact h0
        rw [C51_matrix_mean _ h0]; field_simp
    simp only [poissonEst, hsz, Option.map_some, Option.getD_some, mean, hc, List.sum_append, ht, List.length_append]
    by_cases hv0 : v.length = 0 <;> by_cases hm0 : m.size1 = 0
    · exfalso; apply hne
      rw [List.length_eq_zero_iff] at hv0
      simp only [Mat.size1, List.length_eq_zero_iff] at hm0
      simp [hv0, hm0]
    · rw [if_neg (by simp [hv0]), if_pos ⟨hv0, hm0⟩]
      rw [List.length_eq_zero_iff] at hv0
      subst hv0
      simp only [List.length_nil, zero_add, List.sum_nil] at hN ⊢
      rw [eq_div_iff hN]; exact hmm
    · rw [if_pos ⟨hv0, hm0⟩]
      simp only [Mat.size1, List.length_eq_zero_iff] at hm0
      rw [hm0] at hN ⊢
      simp only [List.flatten_nil, List.length_nil, add_zero, List.sum_nil] at hN ⊢
      rw [eq_div_iff hN]; exact hv
    · rw [if_neg (by simp [hm0]), if_neg (by simp [hv0]), hl2, hmm, hv, ← add_div, add_comm]

/-- **C76 (Poisson).** For counts, not all zero, in any arrangement: the estimate is the mean, and no other parameter is more likely. -/
theorem C76_poisson (d : D) (hw : d.WF) (ns : List ℕ) (hn : d.cells = ns.map Nat.cast) (hpos : 0 < mean d) (lam : ℝ) (hl : 0 < lam) :
    ∃ l l', poissonEst d = mean d ∧ poissonLl lam d = some l ∧ poissonLl (poissonEst d) d = some l' ∧ l ≤ l' := by
  have hne : d.cells ≠ [] := by intro h; rw [mean, h] at hpos; simp at hpos
  have e := poissonEst_eq hw hne
  refine ⟨_, _, e, C74_poisson lam hl d hw ns hn, by rw [e]; exact C74_poisson (mean d) hpos d hw ns hn, ?_⟩
  have hlen : (0 : ℝ) < ns.length := by
    have : 0 < ns.length := by
      rw [List.length_pos_iff]; rintro rfl; exact hne (by rw [hn]; rfl)
    exact_mod_cast this
  have hsum : ((ns.map (Nat.cast : ℕ → ℝ)).sum) = ns.length * mean d := by
    rw [mean, hn, List.length_map]; field_simp
  -- the log of a product of Poisson probabilities
  have e3 : ∀ (lam : ℝ), 0 < lam → ∀ l : List ℕ, log ((l.map fun n => exp (-lam) * lam ^ n / n.factorial).prod)
      = (l.map (Nat.cast : ℕ → ℝ)).sum * log lam - (l.map fun n => log (n.factorial : ℝ)).sum - l.length * lam := by
    intro lam hl l
    induction l with
    | nil => simp
    | cons n l ih =>
      have hf : (0 : ℝ) < n.factorial := by exact_mod_cast n.factorial_pos
      have hp : 0 < (l.map fun n : ℕ => exp (-lam) * lam ^ n / n.factorial).prod := by
        apply List.prod_pos
        intro a ha
        obtain ⟨m, -, rfl⟩ := List.mem_map.1 ha
        have hf : (0 : ℝ) < m.factorial := by exact_mod_cast m.factorial_pos
        positivity
      simp only [List.map_cons, List.prod_cons, List.sum_cons, List.length_cons]
      rw [log_mul (by positivity) hp.ne', ih, mul_div_assoc, log_mul (exp_pos _).ne' (by positivity), log_exp, log_div (by positivity) hf.ne', log_pow]
      push_cast
      ring
  rw [e3 lam hl, e3 _ hpos, hsum]
  have hlog : log (lam / mean d) ≤ lam / mean d - 1 := log_le_sub_one_of_pos (by positivity)
  rw [log_div hl.ne' hpos.ne'] at hlog
  have h2 : ns.length * mean d * (log lam - log (mean d)) ≤ ns.length * mean d * (lam / mean d - 1) := mul_le_mul_of_nonneg_left hlog (by positivity)
  have h3 : ns.length * mean d * (lam / mean d - 1) = ns.length * lam - ns.length * mean d := by field_simp
  nlinarith

/-- **C76 (Bernoulli).** The estimate is the share of nonzero elements, and no other probability is more likely. -/
theorem C76_bernoulli (d : D) (hw : d.WF) (hne : d.cells ≠ []) (p : ℝ) (h0 : 0 < p) (h1 : p < 1) :
    bernoulliEst d = ((d.cells.countP fun x => x ≠ 0 : ℕ) : ℝ) / d.cells.length ∧ bernoulliLl p d ≤ bernoulliLl (bernoulliEst d) d := by
  have hn : (0 : ℝ) < d.cells.length := by have := List.length_pos_iff.2 hne; exact_mod_cast this
  have hcount : ∀ (l : List ℝ) (a b : ℝ), (l.map fun x => if x ≠ 0 then a else b).sum = (l.countP fun x => x ≠ 0 : ℕ) * a + (l.length - (l.countP fun x => x ≠ 0 : ℕ)) * b := by
    intro l a b
    induction l with
    | nil => simp
    | cons x l ih =>
      by_cases hx : x = 0
      · simp only [List.map_cons, List.sum_cons, ih, hx, List.countP_cons, List.length_cons]
        simp
        ring
      · simp only [List.map_cons, List.sum_cons, ih, hx, List.countP_cons, List.length_cons]
        simp [hx]
        ring
  have hest : bernoulliEst d = ((d.cells.countP fun x => x ≠ 0 : ℕ) : ℝ) / d.cells.length := by
    rw [bernoulliEst, mapSum_eq, hcount, tsize_eq hw]; simp
  refine ⟨hest, ?_⟩
  have hll : ∀ q, bernoulliLl q d = (d.cells.countP fun x => x ≠ 0 : ℕ) * log q + (d.cells.length - (d.cells.countP fun x => x ≠ 0 : ℕ)) * log (1 - q) := by
    intro q
    rw [bernoulliLl, mapSum_eq]
    exact hcount d.cells (log q) (log (1 - q))
  have hkn : ((d.cells.countP fun x => x ≠ 0 : ℕ) : ℝ) ≤ d.cells.length := by exact_mod_cast List.countP_le_length
  have hk0 : (0 : ℝ) ≤ ((d.cells.countP fun x => x ≠ 0 : ℕ) : ℝ) := Nat.cast_nonneg _
  rw [hll, hll, hest]
  generalize ((d.cells.countP fun x => x ≠ 0 : ℕ) : ℝ) = k at *
  generalize (d.cells.length : ℝ) = n at *
  -- each part by log t ≤ t - 1
  have a1 : k * log p ≤ k * log (k / n) + (n * p - k) := by
    rcases hk0.lt_or_eq with hk | hk
    · have h := log_le_sub_one_of_pos (show 0 < p / (k / n) by positivity)
      rw [log_div h0.ne' (by positivity)] at h
      have := mul_le_mul_of_nonneg_left h hk.le
      have e : k * (p / (k / n) - 1) = n * p - k := by field_simp
      rw [e] at this; linarith
    · rw [← hk]; simp only [zero_mul, sub_zero, zero_add]; positivity
  have a2 : (n - k) * log (1 - p) ≤ (n - k) * log (1 - k / n) + (n * (1 - p) - (n - k)) := by
    have hp1 : 0 < 1 - p := by linarith
    rcases hkn.lt_or_eq with hk | hk
    · have hq : 0 < 1 - k / n := by rw [sub_pos, div_lt_one hn]; exact hk
      have h := log_le_sub_one_of_pos (show 0 < (1 - p) / (1 - k / n) by positivity)
      rw [log_div hp1.ne' hq.ne'] at h
      have hnk : 0 < n - k := by linarith
      have := mul_le_mul_of_nonneg_left h hnk.le
      have e : (n - k) * ((1 - p) / (1 - k / n) - 1) = n * (1 - p) - (n - k) := by
        have : 1 - k / n = (n - k) / n := by field_simp
        rw [this]
        field_simp
      rw [e] at this; linarith
    · rw [hk]; simp only [sub_self, zero_mul, zero_add, sub_zero]; positivity
  linarith

/-- **C76 (uniform).** With two different numbers in the data: the smallest and the largest number are more likely ends than any others. -/
theorem C76_uniform (d : D) (mn mx : ℝ) (hmm : minmax d = some (mn, mx)) (hlt : mn < mx) (a b l : ℝ) (h : unifLl a b d = some l) :
    ∃ l', unifLl mn mx d = some l' ∧ l ≤ l' := by
  unfold unifLl at *
  rw [hmm] at h ⊢
  simp only at h ⊢
  split at h
  · rename_i hab
    simp only [Option.some.injEq] at h
    refine ⟨_, if_pos ⟨le_refl _, le_refl _⟩, ?_⟩
    rw [← h]
    have : log (mx - mn) ≤ log (b - a) := log_le_log (by linarith) (by linarith [hab.1, hab.2])
    have ht : (0 : ℝ) ≤ d.tsize := Nat.cast_nonneg _
    nlinarith
  · cases h

/-! ### The normal -/

theorem muVar_eq {d : D} (h : OnePart d) : ∃ var : Option ℝ, muVar d = .ok (mean d, var) ∧
    (d.vec = none → var = some (msd d)) ∧ (d.mat = none → 2 ≤ d.cells.length → var = some ((d.cells.map fun x => (x - mean d) ^ 2).sum / ((d.cells.length : ℝ) - 1))) := by
  rcases h.cases with ⟨v, hv, rfl⟩ | ⟨m, hm, hne, h1, rfl⟩
  · have hl : v.length ≠ 0 := by rwa [ne_eq, List.length_eq_zero_iff]
    have hl' : (v.length : ℝ) ≠ 0 := by exact_mod_cast hl
    obtain ⟨e1, e2, e3, e4⟩ := vec_only (v := v)
    refine ⟨vvar ⟨some v, none⟩, ?_, by simp, ?_⟩
    · simp only [muVar, e1, e2, e3, mean, e4, hl, false_and, if_false, ne_eq, not_false_eq_true, true_and, if_true, vmean, gslMean, Option.getD_some, Nat.cast_zero, zero_mul, zero_div, mul_zero, zero_add]
      rw [div_self hl', mul_one]
    · intro _ h2
      rw [e4] at h2
      simp only [vvar, e1, hl, if_false, mean, e4]
      exact C52_var v h2
  · obtain ⟨e1, e2, e3, e4⟩ := mat_only (m := m)
    have ht : (⟨none, some m⟩ : D).tsize = m.rows.flatten.length := by rw [tsize_eq h.wf, e4]
    have hfl := flatten_length hm
    have hl : (m.rows.flatten.length : ℝ) ≠ 0 := by rw [Nat.cast_ne_zero, ne_eq, List.length_eq_zero_iff]; exact hne
    have hl2 : (m.size1 : ℝ) * m.cols = m.rows.flatten.length := by rw [hfl]; push_cast; rfl
    have hmv : mmv ⟨none, some m⟩ = (mean ⟨none, some m⟩, msd ⟨none, some m⟩) := by
      simp only [mmv, e2, h1, if_false, Option.map_some, Option.getD_some, mean, msd, e4]
      exact C53_matrix_var _ hne
    refine ⟨some (msd ⟨none, some m⟩), ?_, fun _ => rfl, by simp⟩
    simp only [muVar, e1, e2, e3, h1, ht, hmv, hl2, and_false, if_false, ne_eq, not_true_eq_false, false_and, not_false_eq_true, and_self, if_true]
    congr 2
    rw [div_self hl]; simp

theorem sum_sq_shift (l : List ℝ) (a b : ℝ) : (l.map fun x => (x - a) ^ 2).sum = (l.map fun x => (x - b) ^ 2).sum + 2 * (b - a) * (l.sum - l.length * b) + l.length * (b - a) ^ 2 := by
  induction l with
  | nil => simp
  | cons x l ih => simp only [List.map_cons, List.sum_cons, ih, List.length_cons]; push_cast; ring

/-- **C76 (normal, mean).** For data in a vector or in a matrix the estimate's mean is the mean, and with any standard deviation no other mean is more likely. -/
theorem C76_normal_mean (d : D) (h : OnePart d) : ∃ sd, normalEst d = .ok (mean d, sd) ∧ ∀ mu s, 0 < s → normalLl mu s d ≤ normalLl (mean d) s d := by
  obtain ⟨var, hv, -, -⟩ := muVar_eq h
  refine ⟨var.map sqrt, by rw [normalEst, hv]; rfl, ?_⟩
  intro mu s hs
  have hn := h.pos
  have hz : d.cells.sum - d.cells.length * mean d = 0 := by rw [mean]; field_simp; ring
  have := sum_sq_shift d.cells mu (mean d)
  rw [hz, mul_zero, add_zero] at this
  simp only [normalLl, mapSum_eq, this]
  have : -((d.cells.map fun x => (x - mean d) ^ 2).sum + d.cells.length * (mean d - mu) ^ 2) / (2 * s ^ 2) ≤ -(d.cells.map fun x => (x - mean d) ^ 2).sum / (2 * s ^ 2) := by
    apply div_le_div_of_nonneg_right _ (by positivity)
    have : 0 ≤ d.cells.length * (mean d - mu) ^ 2 := by positivity
    linarith
  linarith

/-- **C76 (normal, matrix).** For data in a matrix, not all the same, the estimate is the mean and the root mean squared deviation, and no other parameters are more likely. -/
theorem C76_normal_matrix (d : D) (h : OnePart d) (hm : d.vec = none) (hpos : 0 < msd d) (mu s : ℝ) (hs : 0 < s) :
    normalEst d = .ok (mean d, some (sqrt (msd d))) ∧ normalLl mu s d ≤ normalLl (mean d) (sqrt (msd d)) d := by
  obtain ⟨var, hv, hv1, -⟩ := muVar_eq h
  refine ⟨by rw [normalEst, hv, hv1 hm]; rfl, ?_⟩
  obtain ⟨_, -, hmean⟩ := C76_normal_mean d h
  refine (hmean mu s hs).trans ?_
  have hn := h.pos
  have hss : (d.cells.map fun x => (x - mean d) ^ 2).sum = d.cells.length * msd d := by rw [msd]; field_simp
  simp only [normalLl, mapSum_eq, hss, tsize_eq h.wf, sq_sqrt hpos.le, log_sqrt hpos.le]
  have hlog := log_le_sub_one_of_pos (show 0 < msd d / s ^ 2 by positivity)
  rw [log_div hpos.ne' (by positivity), log_pow] at hlog
  push_cast at hlog
  have e1 : -(d.cells.length * msd d) / (2 * s ^ 2) = -(d.cells.length / 2) * (msd d / s ^ 2) := by field_simp
  have e2 : -(d.cells.length * msd d) / (2 * msd d) = -((d.cells.length : ℝ) / 2) := by field_simp
  rw [e1, e2]
  nlinarith

/-- For the same numbers in a vector the standard deviation is the square root of the sample variance (over n - 1), which is not the most likely: for 0 and 2 it is √2, and 1 is more likely. -/
theorem C76_normal_vector_refuted : normalEst ⟨some [0, 2], none⟩ = .ok (1, some (√2)) ∧ normalEst ⟨none, some ⟨[[0, 2]], 2⟩⟩ = .ok (1, some 1) ∧
    normalLl 1 √2 ⟨some [0, 2], none⟩ < normalLl 1 1 ⟨some [0, 2], none⟩ := by
  have ov : OnePart ⟨some [0, 2], none⟩ := ⟨(by intro m hm; cases hm), (by simp [D.cells]), Or.inr rfl⟩
  have om : OnePart ⟨none, some ⟨[[0, 2]], 2⟩⟩ := ⟨(by intro m hm; simp only [Option.some.injEq] at hm; subst hm; simp [Mat.WF]), (by simp [D.cells]), Or.inl rfl⟩
  have mv : mean ⟨some [0, 2], none⟩ = 1 := by norm_num [mean, D.cells]
  have mm : mean ⟨none, some ⟨[[0, 2]], 2⟩⟩ = 1 := by norm_num [mean, D.cells]
  refine ⟨?_, ?_, ?_⟩
  · obtain ⟨var, hv, -, hv2⟩ := muVar_eq ov
    have := hv2 rfl (by simp [D.cells])
    rw [normalEst, hv, this, mv]
    norm_num [D.cells]
  · obtain ⟨var, hv, hv1, -⟩ := muVar_eq om
    have := hv1 rfl
    have e : msd ⟨none, some ⟨[[0, 2]], 2⟩⟩ = 1 := by norm_num [msd, mm, D.cells]
    rw [normalEst, hv, this, mm, e]
    simp
  · have h2 : (0 : ℝ) ≤ 2 := by norm_num
    have hl := one_sub_inv_le_log_of_pos (show (0 : ℝ) < 2 by norm_num)
    have hl2 := Real.log_two_gt_d9
    simp only [normalLl, mapSum_eq, log_sqrt h2, sq_sqrt h2, log_one, D.cells, D.tsize, D.vsize, D.msize1, D.msize2]
    norm_num
    linarith

/-- With a vector and a matrix both, the estimate of the normal does not come back. -/
theorem C76_normal_both (v : List ℝ) (m : Mat ℝ) (hv : v ≠ []) (hm : m.size1 ≠ 0) : normalEst ⟨some v, some m⟩ = .ub := by
  have hl : v.length ≠ 0 := by rwa [ne_eq, List.length_eq_zero_iff]
  simp [normalEst, muVar, D.vsize, D.msize1, hv, hm]

/-! A case that meets the hypotheses of the theorems: four counts in a matrix. -/

example : let d : D := ⟨none, some ⟨[[1, 3], [0, 4]], 2⟩⟩
    OnePart d ∧ d.vec = none ∧ d.cells = [1, 3, 0, 4].map (Nat.cast : ℕ → ℝ) ∧ mean d = 2 ∧ 0 < msd d ∧ minmax d = some (0, 4) := by
  intro d
  have hm : mean d = 2 := by norm_num [d, mean, D.cells]
  refine ⟨⟨?_, by simp [d, D.cells], Or.inl rfl⟩, rfl, by simp [d, D.cells], hm, ?_, ?_⟩
  · intro m hm
    simp only [d, Option.some.injEq] at hm
    subst hm
    intro r hr
    simp at hr
    rcases hr with rfl | rfl <;> rfl
  · rw [msd, hm]; norm_num [d, D.cells]
  · norm_num [d, minmax, D.cells]

end Apop.Dist
