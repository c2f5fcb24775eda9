import Verif.Regress.Ols
import Verif.Name.Model

/-! # C156: instrumental variables -/

namespace Apop.Ols
open Matrix
variable {n k : ℕ}

/-- The instrument set: perhaps a vector of column numbers (whole, as C converts them), the column names, and the columns of the matrix, none for no matrix. As many rows as the data (else GSL's error handler). -/
structure Instr (n : ℕ) where
  nums : Option (List ℤ)
  names : List CStr
  cols : List (Fin n → ℝ)

/-! ## The models -/

/-- `gsl_vector_memcpy(Apop_cv(out, c), v)`, model/apop_ols.c:440-441, 448: column -1 is the vector, which nobody reads again; a view of no column is NULL (apop.m4.h:836-842). -/
def setCol (X : Matrix (Fin n) (Fin k) ℝ) (c : ℤ) (v : Fin n → ℝ) : Res (Matrix (Fin n) (Fin k) ℝ) :=
  if c = -1 then .ok X
  else if h : 0 ≤ c ∧ c < k then .ok (X.updateCol ⟨c.toNat, by omega⟩ v)
  else .ub

/-- The loop by column number, model/apop_ols.c:438-442: the `i`th number goes with the `i`th column of the instruments. -/
def byNumber (X : Matrix (Fin n) (Fin k) ℝ) : List ℤ → List (Fin n → ℝ) → Res (Matrix (Fin n) (Fin k) ℝ)
  | [], _ => .ok X
  | _ :: _, [] => .ub
  | c :: cs, v :: vs => (setCol X c v).bind fun X' => byNumber X' cs vs

/-- The loop by column name, model/apop_ols.c:444-449. A name not found is asserted against, NULL returned for Z, and so are the products with it, the first of which is then dereferenced (lines 475-478): undefined. -/
def byName (nm : Names) (X : Matrix (Fin n) (Fin k) ℝ) : List CStr → List (Fin n → ℝ) → Res (Matrix (Fin n) (Fin k) ℝ)
  | [], _ => .ok X
  | s :: ss, vs => (nm.find (some s) 'c').bind fun c => if c = -2 then .ub else
    match vs with
    | [] => .ub
    | v :: vs => (setCol X c v).bind fun X' => byName nm X' ss vs

/-- `prep_z`, model/apop_ols.c:435-454; with neither numbers nor names, NULL is returned, and dereferenced later as above. -/
def prepZ (nm : Names) (X : Matrix (Fin n) (Fin k) ℝ) (I : Instr n) : Res (Matrix (Fin n) (Fin k) ℝ) :=
  match I.nums with
  | some l => byNumber X l I.cols
  | none => if I.names.length ≠ 0 then byName nm X I.names I.cols else .ub

/-- `apop_estimate_IV` from Z on, model/apop_ols.c:463-492, default settings: `xpxinvxpy` gets the data without weights, but Z'X and Z'y with their roots on one side. -/
noncomputable def finishIV (d : In n k) (Z I : Matrix (Fin k) (Fin k) ℝ) (zpy : Fin k → ℝ) : Est n k :=
  let β := I *ᵥ zpy
  let error := d.X *ᵥ β - d.y
  let s2 := (error ⬝ᵥ error) / df n k
  ⟨β, (s2 • I) * (Z * Iᵀ), s2, d.y, d.y + error, error⟩

/-- `apop_estimate_IV`, model/apop_ols.c:456-519, default settings. Without instruments least squares is run, but there is no return: NULL is then dereferenced. Freed pointers are set to NULL by the macro (apop.m4.h:185), so the second freeing does nothing. -/
noncomputable def estimateIV (nm : Names) (d : In n k) (instr : Option (Instr n)) : Res (Est n k) :=
  match instr with
  | none => .ub
  | some I => (prepZ nm d.X I).bind fun Z =>
    match inv (Zᵀ * scaledX d) with
    | none => .ub
    | some i => .ok (finishIV d (Zᵀ * Z) i (Zᵀ *ᵥ scaledY d))

/-! ## Proofs -/

/-- The column found for a number: what stands for column `j` after the substitutions, the last one given for it. -/
def standIn (j : Fin k) (old : Fin n → ℝ) : List (ℤ × (Fin n → ℝ)) → (Fin n → ℝ)
  | [] => old
  | (c, v) :: l => standIn j (if c = (j.val : ℤ) then v else old) l

theorem setCol_ok {X X' : Matrix (Fin n) (Fin k) ℝ} {c : ℤ} {v : Fin n → ℝ} (h : setCol X c v = .ok X') (j : Fin k) : (fun i => X' i j) = if c = (j.val : ℤ) then v else fun i => X i j := by
  unfold setCol at h
  by_cases h1 : c = -1
  · rw [if_pos h1] at h
    cases h
    rw [if_neg (by omega)]
  · rw [if_neg h1] at h
    by_cases h2 : 0 ≤ c ∧ c < k
    · rw [dif_pos h2] at h
      cases h
      by_cases h3 : c = (j.val : ℤ)
      · rw [if_pos h3]
        have : (⟨c.toNat, by omega⟩ : Fin k) = j := by ext; simp; omega
        funext i
        rw [this]; simp
      · rw [if_neg h3]
        funext i
        rw [Matrix.updateCol_ne]
        intro h4; rw [h4] at h3; apply h3; simp; omega
    · rw [dif_neg h2] at h; cases h

theorem byNumber_ok : ∀ (l : List ℤ) (vs : List (Fin n → ℝ)) (X Z : Matrix (Fin n) (Fin k) ℝ), byNumber X l vs = .ok Z → ∀ j : Fin k, (fun i => Z i j) = standIn j (fun i => X i j) (l.zip vs) := by
  intro l
  induction l with
  | nil => intro vs X Z h j; cases h; rfl
  | cons c cs ih =>
    intro vs X Z h j
    cases vs with
    | nil => cases h
    | cons v vs =>
      rw [byNumber] at h
      cases hs : setCol X c v with
      | ub => rw [hs] at h; cases h
      | ok X' =>
        rw [hs] at h
        rw [ih vs X' Z h j, List.zip_cons_cons, standIn, setCol_ok hs j]

theorem setCol_when (X : Matrix (Fin n) (Fin k) ℝ) (c : ℤ) (v : Fin n → ℝ) : (∃ Z, setCol X c v = .ok Z) ↔ -1 ≤ c ∧ c < k := by
  unfold setCol
  by_cases h1 : c = -1
  · subst h1; simp; omega
  · by_cases h2 : 0 ≤ c ∧ c < k
    · simp [h1, h2]; omega
    · simp [h1, h2]; omega

theorem byNumber_when : ∀ (l : List ℤ) (vs : List (Fin n → ℝ)) (X : Matrix (Fin n) (Fin k) ℝ), (∃ Z, byNumber X l vs = .ok Z) ↔ l.length ≤ vs.length ∧ ∀ c ∈ l, -1 ≤ c ∧ c < k := by
  intro l
  induction l with
  | nil => intro vs X; simp [byNumber]
  | cons c cs ih =>
    intro vs X
    cases vs with
    | nil => simp [byNumber]
    | cons v vs =>
      rw [byNumber]
      cases hs : setCol X c v with
      | ub =>
        have : ¬ (-1 ≤ c ∧ c < k) := by rw [← setCol_when X c v, hs]; simp
        constructor
        · rintro ⟨Z, hZ⟩; cases hZ
        · rintro ⟨_, h⟩; exact absurd (h c (by simp)) this
      | ok X' =>
        have hc : -1 ≤ c ∧ c < k := (setCol_when X c v).1 ⟨X', hs⟩
        change (∃ Z, byNumber X' cs vs = .ok Z) ↔ _
        rw [ih vs X']
        simp only [List.length_cons, List.mem_cons, forall_eq_or_imp]
        constructor
        · rintro ⟨a, b⟩; exact ⟨by omega, hc, b⟩
        · rintro ⟨a, _, b⟩; exact ⟨by omega, b⟩

/-- **C156 (Z by number).** With column numbers: every column of Z is the last instrument given for its number, or else the data's own; it goes through exactly when there is an instrument for each number and each is a column of the data (or -1). -/
theorem C156_by_number (nm : Names) (X : Matrix (Fin n) (Fin k) ℝ) (l : List ℤ) (names : List CStr) (cols : List (Fin n → ℝ)) :
    ((∃ Z, prepZ nm X ⟨some l, names, cols⟩ = .ok Z) ↔ l.length ≤ cols.length ∧ ∀ c ∈ l, -1 ≤ c ∧ c < k) ∧
    ∀ Z, prepZ nm X ⟨some l, names, cols⟩ = .ok Z → ∀ j : Fin k, (fun i => Z i j) = standIn j (fun i => X i j) (l.zip cols) :=
  ⟨byNumber_when l cols X, fun Z h => byNumber_ok l cols X Z h⟩

theorem byName_eq (nm : Names) : ∀ (ss : List CStr) (cs : List ℤ) (vs : List (Fin n → ℝ)) (X : Matrix (Fin n) (Fin k) ℝ), List.Forall₂ (fun s c => nm.find (some s) 'c' = .ok c) ss cs → byName nm X ss vs = byNumber X cs vs := by
  intro ss
  induction ss with
  | nil => intro cs vs X h; cases h; rfl
  | cons s ss ih =>
    intro cs vs X h
    cases h with
    | @cons _ c _ cs h1 h2 =>
      rw [byName, h1]
      change (if c = -2 then _ else _) = _
      by_cases hc : c = -2
      · rw [if_pos hc]
        cases vs with
        | nil => rfl
        | cons v vs =>
          rw [byNumber]
          have : setCol X c v = .ub := by unfold setCol; rw [if_neg (by omega), dif_neg (by omega)]
          rw [this]; rfl
      · rw [if_neg hc]
        cases vs with
        | nil => rfl
        | cons v vs =>
          rw [byNumber]
          cases hs : setCol X c v with
          | ub => simp only [hs]; rfl
          | ok X' => simp only [hs]; exact ih cs vs X' h2

/-- **C156 (Z by name).** Without numbers, the columns' names are looked up among the data's (C02), and it is as if the numbers found had been given. -/
theorem C156_by_name (nm : Names) (X : Matrix (Fin n) (Fin k) ℝ) (names : List CStr) (hn : names ≠ []) (cols : List (Fin n → ℝ)) (cs : List ℤ) (hf : List.Forall₂ (fun s c => nm.find (some s) 'c' = .ok c) names cs) :
    prepZ nm X ⟨none, names, cols⟩ = prepZ nm X ⟨some cs, [], cols⟩ := by
  unfold prepZ
  simp only
  rw [if_pos (by simpa using hn), byName_eq nm names cs cols X hf]

theorem iv_ok {nm : Names} {d : In n k} {I : Instr n} {e : Est n k} (he : estimateIV nm d (some I) = .ok e) :
    ∃ Z, prepZ nm d.X I = .ok Z ∧ (Zᵀ * scaledX d).det ≠ 0 ∧ e = finishIV d (Zᵀ * Z) (Zᵀ * scaledX d)⁻¹ (Zᵀ *ᵥ scaledY d) := by
  unfold estimateIV at he
  simp only at he
  cases hz : prepZ nm d.X I with
  | ub => rw [hz] at he; cases he
  | ok Z =>
    rw [hz] at he
    refine ⟨Z, rfl, ?_⟩
    simp only [Res.bind, inv] at he
    by_cases hd : (Zᵀ * scaledX d).det = 0
    · simp [hd] at he
    · simp only [hd, if_false, Res.ok.injEq] at he
      exact ⟨hd, he.symm⟩

/-- The moment conditions: the errors of `b`, times the roots of the weights, are orthogonal to every column of Z. -/
def Moments (d : In n k) (Z : Matrix (Fin n) (Fin k) ℝ) (b : Fin k → ℝ) : Prop :=
  ∀ j, ∑ i, Z i j * (Real.sqrt (d.weight i) * (∑ l, d.X i l * b l - d.y i)) = 0

theorem rootW_eq (d : In n k) (i : Fin n) : rootW d.w i = Real.sqrt (d.weight i) := by
  unfold rootW In.weight
  cases d.w <;> simp

theorem moments_iff (d : In n k) (Z : Matrix (Fin n) (Fin k) ℝ) (b : Fin k → ℝ) : Moments d Z b ↔ (Zᵀ * scaledX d) *ᵥ b = Zᵀ *ᵥ scaledY d := by
  have : ∀ j, ∑ i, Z i j * (Real.sqrt (d.weight i) * (∑ l, d.X i l * b l - d.y i)) = (Zᵀ *ᵥ (scaledX d *ᵥ b - scaledY d)) j := by
    intro j
    simp only [Matrix.mulVec, dotProduct, Matrix.transpose_apply]
    refine Finset.sum_congr rfl fun i _ => ?_
    rw [Pi.sub_apply]
    rw [scaled_mulVec d b i, scaledY, rootW_eq]; ring
  unfold Moments
  simp only [this]
  rw [← Matrix.mulVec_mulVec, ← sub_eq_zero (a := Zᵀ *ᵥ (scaledX d *ᵥ b)), ← Matrix.mulVec_sub]
  exact ⟨fun h => funext h, fun h j => congrFun h j⟩

/-- **C156 (estimate).** With any instruments and weights: the parameters estimated satisfy the moment conditions, and nothing else does. -/
theorem C156_moments (nm : Names) (d : In n k) (I : Instr n) (e : Est n k) (he : estimateIV nm d (some I) = .ok e) (Z : Matrix (Fin n) (Fin k) ℝ) (hZ : prepZ nm d.X I = .ok Z) (b : Fin k → ℝ) : Moments d Z b ↔ b = e.β := by
  obtain ⟨Z', hZ', hd, rfl⟩ := iv_ok he
  rw [hZ] at hZ'; cases hZ'
  have hu : IsUnit (Zᵀ * scaledX d).det := isUnit_iff_ne_zero.2 hd
  rw [moments_iff]
  simp only [finishIV]
  constructor
  · intro h
    rw [← h, Matrix.mulVec_mulVec, Matrix.nonsing_inv_mul _ hu, Matrix.one_mulVec]
  · rintro rfl
    rw [Matrix.mulVec_mulVec, Matrix.mul_nonsing_inv _ hu, Matrix.one_mulVec]

/-- **C156 (when).** It goes through exactly when Z is made and one parameter vector only satisfies the conditions. -/
theorem C156_when (nm : Names) (d : In n k) (I : Instr n) : (∃ e, estimateIV nm d (some I) = .ok e) ↔ ∃ Z, prepZ nm d.X I = .ok Z ∧ ∀ b : Fin k → ℝ, (∀ j, ∑ i, Z i j * (Real.sqrt (d.weight i) * ∑ l, d.X i l * b l) = 0) → b = 0 := by
  have key : ∀ Z : Matrix (Fin n) (Fin k) ℝ, (Zᵀ * scaledX d).det ≠ 0 ↔ ∀ b : Fin k → ℝ, (∀ j, ∑ i, Z i j * (Real.sqrt (d.weight i) * ∑ l, d.X i l * b l) = 0) → b = 0 := by
    intro Z
    have e : ∀ b : Fin k → ℝ, (∀ j, ∑ i, Z i j * (Real.sqrt (d.weight i) * ∑ l, d.X i l * b l) = 0) ↔ (Zᵀ * scaledX d) *ᵥ b = 0 := by
      intro b
      have := moments_iff { d with y := fun _ => 0 } Z b
      have hy : scaledY { d with y := fun _ => 0 } = 0 := by funext i; simp [scaledY]
      rw [hy, Matrix.mulVec_zero] at this
      unfold Moments at this
      simp only [sub_zero] at this
      exact this
    simp only [e]
    rw [ne_eq, ← Matrix.exists_mulVec_eq_zero_iff]
    push Not
    exact ⟨fun h b hb => by_contra fun hne => h b hne hb, fun h b hne hb => hne (h b hb)⟩
  constructor
  · rintro ⟨e, he⟩
    obtain ⟨Z, hZ, hd, _⟩ := iv_ok he
    exact ⟨Z, hZ, (key Z).1 hd⟩
  · rintro ⟨Z, hZ, hb⟩
    have hd := (key Z).2 hb
    refine ⟨finishIV d (Zᵀ * Z) (Zᵀ * scaledX d)⁻¹ (Zᵀ *ᵥ scaledY d), ?_⟩
    simp [estimateIV, hZ, Res.bind, inv, hd]

/-- **C156 (why instruments).** If the dependent variable is linear with coefficients b in the columns plus an error orthogonal to the instruments (times the roots of the weights), the estimate is b, however the error goes with the columns. -/
theorem C156_exact (nm : Names) (d : In n k) (I : Instr n) (e : Est n k) (he : estimateIV nm d (some I) = .ok e) (Z : Matrix (Fin n) (Fin k) ℝ) (hZ : prepZ nm d.X I = .ok Z) (b : Fin k → ℝ) (u : Fin n → ℝ)
    (hy : ∀ i, d.y i = ∑ l, d.X i l * b l + u i) (hu : ∀ j, ∑ i, Z i j * (Real.sqrt (d.weight i) * u i) = 0) : e.β = b := by
  refine ((C156_moments nm d I e he Z hZ b).1 fun j => ?_).symm
  have h := hu j
  rw [← neg_eq_zero, ← Finset.sum_neg_distrib] at h
  rw [← h]
  exact Finset.sum_congr rfl fun i _ => by rw [hy i]; ring

/-- **C156 (error variance, page).** Weighted or not, the page has the dependent variable, the prediction and the second less the first, and the error variance is the sum of the squares of these residuals over n - k. -/
theorem C156_page (nm : Names) (d : In n k) (I : Instr n) (e : Est n k) (he : estimateIV nm d (some I) = .ok e) (hk : k ≤ n) :
    e.observed = d.y ∧ (∀ i, e.predicted i = ∑ j, d.X i j * e.β j) ∧ e.residual = e.predicted - e.observed ∧ e.s2 = (∑ i, (d.y i - ∑ j, d.X i j * e.β j) ^ 2) / ((n : ℝ) - k) := by
  obtain ⟨Z, hZ, hd, rfl⟩ := iv_ok he
  refine ⟨rfl, fun i => ?_, ?_, ?_⟩
  · simp only [finishIV, add_sub_cancel]; rfl
  · simp [finishIV]
  · simp only [finishIV, df, hk, if_true, Nat.cast_sub hk]
    congr 1
    simp only [dotProduct, Pi.sub_apply]
    refine Finset.sum_congr rfl fun i _ => ?_
    simp only [Matrix.mulVec, dotProduct]
    ring

/-- **C156 (covariance).** The covariance C has (Z'√W X) C (Z'√W X)' = σ² Z'Z; it is symmetric, with diagonal elements not negative (k < n). -/
theorem C156_covariance (nm : Names) (d : In n k) (I : Instr n) (e : Est n k) (he : estimateIV nm d (some I) = .ok e) (Z : Matrix (Fin n) (Fin k) ℝ) (hZ : prepZ nm d.X I = .ok Z) (M : Matrix (Fin k) (Fin k) ℝ)
    (hM : M = Matrix.of fun j l => ∑ i, Z i j * (Real.sqrt (d.weight i) * d.X i l)) : M * e.cov * Mᵀ = e.s2 • (Zᵀ * Z) ∧ e.covᵀ = e.cov ∧ (k < n → ∀ j, 0 ≤ e.cov j j) := by
  obtain ⟨Z', hZ', hd, rfl⟩ := iv_ok he
  rw [hZ] at hZ'; cases hZ'
  have hMe : M = Zᵀ * scaledX d := by
    rw [hM]; ext j l
    rw [Matrix.mul_apply, Matrix.of_apply]
    refine Finset.sum_congr rfl fun i _ => ?_
    rw [Matrix.transpose_apply, ← rootW_eq]; simp only [scaledX]; ring
  rw [← hMe] at hd ⊢
  have hu : IsUnit M.det := isUnit_iff_ne_zero.2 hd
  have hut : IsUnit Mᵀ.det := by rwa [Matrix.det_transpose]
  simp only [finishIV]
  refine ⟨?_, ?_, ?_⟩
  · rw [Matrix.smul_mul, Matrix.mul_smul, Matrix.smul_mul]
    rw [Matrix.transpose_nonsing_inv, ← Matrix.mul_assoc, ← Matrix.mul_assoc, ← Matrix.mul_assoc, Matrix.mul_nonsing_inv _ hu, Matrix.one_mul, Matrix.mul_assoc, Matrix.nonsing_inv_mul _ hut, Matrix.mul_one]
  · rw [Matrix.smul_mul, Matrix.transpose_smul]
    congr 1
    simp only [Matrix.transpose_mul, Matrix.transpose_transpose, Matrix.mul_assoc]
  · intro hk j
    rw [Matrix.smul_mul, Matrix.smul_apply, smul_eq_mul]
    have hdf : 0 ≤ ((df n k : ℕ) : ℝ) := Nat.cast_nonneg _
    refine mul_nonneg (div_nonneg ?_ hdf) ?_
    · unfold dotProduct; exact Finset.sum_nonneg fun i _ => mul_self_nonneg _
    · have : M⁻¹ * (Zᵀ * Z * M⁻¹ᵀ) = (Z * M⁻¹ᵀ)ᵀ * (Z * M⁻¹ᵀ) := by
        simp only [Matrix.transpose_mul, Matrix.transpose_transpose, Matrix.mul_assoc]
      rw [this, Matrix.mul_apply]
      exact Finset.sum_nonneg fun i _ => by rw [Matrix.transpose_apply]; exact mul_self_nonneg _

/-- **C156 (as least squares).** Without weights, and with no column changed by the instruments, all of the results are those of least squares. -/
theorem C156_least_squares (nm : Names) (y : Fin n → ℝ) (X : Matrix (Fin n) (Fin k) ℝ) (I : Instr n) (hZ : prepZ nm X I = .ok X) : estimateIV nm ⟨y, X, none⟩ (some I) = estimate ⟨y, X, none⟩ := by
  have hX : scaledX ⟨y, X, none⟩ = X := by funext i j; simp [scaledX, rootW]
  have hy : scaledY ⟨y, X, none⟩ = y := by funext i; simp [scaledY, rootW]
  unfold estimateIV estimate
  simp only [hX, hy, hZ, Res.bind]
  by_cases hd : (Xᵀ * X).det = 0
  · simp [inv, hd]
  · have hu : IsUnit (Xᵀ * X).det := isUnit_iff_ne_zero.2 hd
    simp only [inv, hd, if_false, finishIV, finish, Res.ok.injEq]
    have ht : ((Xᵀ * X)⁻¹)ᵀ = (Xᵀ * X)⁻¹ := by rw [Matrix.transpose_nonsing_inv, Matrix.transpose_mul, Matrix.transpose_transpose]
    rw [ht, Matrix.mul_nonsing_inv _ hu, Matrix.mul_one]

/-- **C156 (no instruments) fails as documented**: "If the instruments data set is NULL or empty, I'll just run OLS" — undefined, whatever the data. -/
theorem C156_no_instruments_refuted (nm : Names) (d : In n k) : estimateIV nm d none = .ub ∧ estimateIV nm d (some ⟨none, [], []⟩) = .ub := ⟨rfl, rfl⟩

/-- Two rows with weights one and four. -/
noncomputable def weighted2 : In 2 1 := ⟨![0, 1], fun _ _ => 1, some ![1, 4]⟩

/-- The set of instruments that replaces column 0 by what it is already. -/
def same2 : Instr 2 := ⟨some [0], [], [fun _ => 1]⟩

theorem same2_z : prepZ Names.alloc weighted2.X same2 = .ok weighted2.X := by
  show byNumber _ [0] [fun _ => 1] = _
  rw [byNumber, setCol, if_neg (by decide), dif_pos ⟨le_refl _, by decide⟩]
  show Res.ok _ = Res.ok _
  congr 1
  funext i j
  fin_cases j
  exact Matrix.updateCol_self

/-- **C156 (weights) fails**: the roots of the weights are put on the data but not on the instruments; with the data's own columns for instruments the result is not weighted least squares: 2/3 and not 4/5. -/
theorem C156_weights_refuted : ∃ e e', estimateIV Names.alloc weighted2 (some same2) = .ok e ∧ estimate weighted2 = .ok e' ∧ e.β 0 = 2 / 3 ∧ e'.β 0 = 4 / 5 := by
  have s4 : Real.sqrt 4 = 2 := by rw [show (4 : ℝ) = 2 ^ 2 by norm_num]; exact Real.sqrt_sq (by norm_num)
  have hnn : Nonneg weighted2 := by intro i; fin_cases i <;> simp [weighted2, In.weight]
  obtain ⟨e, he⟩ : ∃ e, estimateIV Names.alloc weighted2 (some same2) = .ok e := by
    rw [C156_when]
    refine ⟨_, same2_z, fun b hb => ?_⟩
    have := hb 0
    simp [weighted2, In.weight, Fin.sum_univ_two, s4] at this
    funext j; fin_cases j; simp; linarith
  obtain ⟨e', he'⟩ : ∃ e, estimate weighted2 = .ok e := by
    rw [C86_when _ hnn]
    intro b hb
    have := hb 0 (by simp [weighted2, In.weight])
    simp [weighted2] at this
    funext j; fin_cases j; simpa using this
  refine ⟨e, e', he, he', ?_, ?_⟩
  · have := (C156_moments _ _ _ e he _ same2_z e.β).2 rfl 0
    simp [weighted2, In.weight, Fin.sum_univ_two, s4] at this
    linarith
  · have := C86_normal weighted2 hnn e' he' 0
    simp [weighted2, In.weight, Fin.sum_univ_two] at this
    linarith

/-- A case: a constant and a noisy column, instrumented by name; y is 1 + 2 x less the noise's share. The estimate is of the first names, not distracted by the noise. -/
noncomputable def case4 : In 4 2 := ⟨![1, 1, 3, 3], !![1, 1; 1, -1; 1, 2; 1, 0], none⟩

def case4I : Instr 4 := ⟨none, [str "x"], [![0, 0, 1, 1]]⟩

def case4Names : Names := (((Names.alloc.add (some (str "1")) 'c').1).add (some (str "X")) 'c').1

theorem case4_z : prepZ case4Names case4.X case4I = .ok !![1, 0; 1, 0; 1, 1; 1, 1] := by
  have hf : case4Names.find (some (str "x")) 'c' = .ok 1 := by decide +kernel
  rw [show case4I = ⟨none, [str "x"], [![0, 0, 1, 1]]⟩ from rfl, C156_by_name _ _ _ (by simp) _ [1] (by simpa using hf)]
  show byNumber _ [1] [![0, 0, 1, 1]] = _
  rw [byNumber, setCol, if_neg (by decide), dif_pos ⟨by decide, by decide⟩]
  show Res.ok _ = Res.ok _
  congr 1
  funext i j
  fin_cases j <;> fin_cases i <;> simp [case4, Matrix.updateCol, Function.update]

/-- The hypotheses are met: estimate (1, 2), where least squares would find another slope. -/
example : ∃ e, estimateIV case4Names case4 (some case4I) = .ok e ∧ e.β 0 = 1 ∧ e.β 1 = 2 := by
  obtain ⟨e, he⟩ : ∃ e, estimateIV case4Names case4 (some case4I) = .ok e := by
    rw [C156_when]
    refine ⟨_, case4_z, fun b hb => ?_⟩
    have h0 := hb 0
    have h1 := hb 1
    simp [case4, In.weight, Fin.sum_univ_succ] at h0 h1
    funext j; fin_cases j <;> simp <;> linarith
  have hb := C156_moments _ _ _ e he _ case4_z
  have := (hb ![1, 2]).1 (by
    intro j
    fin_cases j <;> simp [case4, In.weight, Fin.sum_univ_succ] <;> norm_num)
  exact ⟨e, he, by rw [← this]; rfl, by rw [← this]; rfl⟩

end Apop.Ols
