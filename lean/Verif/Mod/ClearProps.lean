import Verif.Mod.Clear

/-! # C109: prepping a model -/

namespace Apop.Mod
variable {α : Type}

/-! ## Specification -/

/-- The width a size of -1 stands for: the number of columns of the matrix, or one for a lone vector, or zero. -/
def dataWidth (d : Option (Page α)) : Nat :=
  match d with
  | none => 0
  | some p => match p.matrix with
    | some m => if m.cols = 0 then (if p.vector.isSome then 1 else 0) else m.cols
    | none => if p.vector.isSome then 1 else 0

/-- The size a model's declared size means for data of width `w`. -/
def meant (w : Nat) (s : Int) : Nat := if s = -1 then w else s.toNat

/-- A data set's vector length and matrix dimensions (zero for a missing part). -/
def shape (p : Page α) : Nat × Nat × Nat :=
  ((p.vector.map List.length).getD 0, (p.matrix.map Mat.size1).getD 0, (p.matrix.map Mat.cols).getD 0)

/-- The sizes a model may declare: -1 or a count. -/
def Declared (s : Int) : Prop := -1 ≤ s ∧ s < 2 ^ 31

/-- The data's matrix has fewer than 2³¹ columns. -/
def Narrow (d : Option (Page α)) : Prop := ∀ p m, d = some p → p.matrix = some m → m.cols < 2 ^ 31

/-- The model has no info page yet, or one as `apop_data_alloc` or an earlier prep made it. -/
def InfoOk (m : Model α) : Prop := ∀ p, m.info = some p → p.names.isSome

theorem toInt32_small {n : Nat} (h : n < 2 ^ 31) : Page.toInt32 n = n := by
  unfold Page.toInt32
  have : n % 2 ^ 32 = n := Nat.mod_eq_of_lt (by omega)
  simp only [this]
  rw [if_pos h]

theorem width_eq {d : Option (Page α)} (h : Narrow d) : width d = (dataWidth d : Int) := by
  unfold width dataWidth
  cases d with
  | none => simp
  | some p =>
    cases hm : p.matrix with
    | none => simp [hm]; split <;> simp
    | some m =>
      have := h p m rfl hm
      simp only [Option.bind_some, hm, Option.map_some, Option.getD_some]
      rw [toInt32_small this]
      by_cases h0 : m.cols = 0
      · simp [h0]; split <;> simp
      · simp [h0]

theorem fillIn_eq {w : Nat} {s : Int} (h : Declared s) : fillIn w s = (meant w s : Int) := by
  unfold fillIn meant
  split
  · rfl
  · have := h.1; omega

theorem toSize_nat {n : Nat} (h : n < 2 ^ 64) : toSize (n : Int) = n := by
  unfold toSize
  omega

theorem meant_lt {w : Nat} (hw : w < 2 ^ 31) {s : Int} (h : Declared s) : meant w s < 2 ^ 31 := by
  unfold meant
  split
  · exact hw
  · have := h.2; omega

theorem dataWidth_lt {d : Option (Page α)} (h : Narrow d) : dataWidth d < 2 ^ 31 := by
  unfold dataWidth
  split
  · decide
  · rename_i p
    split
    · rename_i m hm
      split
      · split <;> decide
      · exact h p m rfl hm
    · split <;> decide

theorem infoPage_ok {m : Model α} (h : InfoOk m) : infoPage m.info = .ok (some (titled (m.info.getD Page.empty))) := by
  unfold infoPage
  cases hi : m.info with
  | none => simp [Page.empty]
  | some p => simp [h p hi]

theorem clear_ok (junk : α) (d : Option (Page α)) (m : Model α) (h : InfoOk m) :
    clear junk d m = .ok { m with
      error := checkSize (width d) m.msize2 (checkSize (width d) m.msize1 (checkSize (width d) m.vsize (checkSize (width d) m.dsize m.error)))
      dsize := fillIn (width d) m.dsize
      parameters := allocParams junk (fillIn (width d) m.vsize) (fillIn (width d) m.msize1) (fillIn (width d) m.msize2) m.parameters
      info := some (titled (m.info.getD Page.empty))
      data := m.data.or d } := by
  unfold clear
  rw [infoPage_ok h]
  rfl

/-- The shape of what `apop_data_alloc(v, r, c)` gives, when the matrix sizes are both zero or both not, or there is no vector. -/
theorem shape_alloc (junk : α) (v r c : Nat) (hr : r < 2 ^ 31) (hok : c = 0 → r = 0) :
    shape (Page.allocWith junk v r (c : Int)) = (v, if r = 0 then 0 else r, if r = 0 then 0 else c) := by
  unfold Page.allocWith Page.allocSizes shape
  by_cases hc : c = 0
  · have := hok hc
    subst hc; subst this
    by_cases hv : v = 0 <;> simp [hv]
  · by_cases hr0 : r = 0
    · by_cases hv : v = 0 <;> simp [hc, hr0, hv]
    · by_cases hv : v = 0 <;>
      simp [hc, hr0, hv, Mat.fresh, Mat.size1, Nat.pos_of_ne_zero hr0, Nat.pos_of_ne_zero hc]

/-- Nothing in an allocated data set but its vector and matrix. -/
theorem alloc_rest (junk : α) (a b : Nat) (c : Int) :
    (Page.allocWith junk a b c).weights = none ∧ (Page.allocWith junk a b c).text = [] ∧ (Page.allocWith junk a b c).error = none := by
  unfold Page.allocWith
  exact ⟨rfl, rfl, rfl⟩

/-- **C109**: prepping a model without parameters, with data of positive width or a model with no size of -1, leaves the
error alone, sets `dsize`, keeps the declared parameter sizes, allocates parameters of exactly the sizes meant (a vector
of `vsize` and a matrix of `msize1` by `msize2`; none when all are zero) with no error, titles the info page, and keeps
the data pointer if there was one. -/
theorem C109_prep (junk : α) (d : Option (Page α)) (m : Model α) (hd : Narrow d) (hi : InfoOk m)
    (s0 : Declared m.dsize) (s1 : Declared m.vsize) (s2 : Declared m.msize1) (s3 : Declared m.msize2)
    (hm : meant (dataWidth d) m.msize2 = 0 → meant (dataWidth d) m.msize1 = 0)
    (hw : 0 < dataWidth d ∨ (m.dsize ≠ -1 ∧ m.vsize ≠ -1 ∧ m.msize1 ≠ -1 ∧ m.msize2 ≠ -1))
    (hp : m.parameters = none) :
    ∃ m' : Model α, clear junk d m = .ok m' ∧ m'.error = m.error ∧ m'.dsize = meant (dataWidth d) m.dsize ∧
      m'.vsize = m.vsize ∧ m'.msize1 = m.msize1 ∧ m'.msize2 = m.msize2 ∧
      (m'.parameters.isSome ↔ meant (dataWidth d) m.vsize ≠ 0 ∨
        (meant (dataWidth d) m.msize1 ≠ 0 ∧ meant (dataWidth d) m.msize2 ≠ 0)) ∧
      (∀ p, m'.parameters = some p → p.error = none ∧ p.weights = none ∧ p.text = [] ∧
        shape p = (meant (dataWidth d) m.vsize, meant (dataWidth d) m.msize1,
          if meant (dataWidth d) m.msize1 = 0 then 0 else meant (dataWidth d) m.msize2)) ∧
      (∃ i n, m'.info = some i ∧ i.names = some n ∧ n.title = some infoTitle) ∧
      m'.data = (if m.data.isSome then m.data else d) := by
  rw [clear_ok junk d m hi, width_eq hd]
  refine ⟨_, rfl, ?_, ?_, rfl, rfl, rfl, ?_, ?_, ?_, ?_⟩
  · unfold checkSize
    have e : ∀ s : Int, (0 < dataWidth d ∨ s ≠ -1) → ¬ (s = -1 ∧ (dataWidth d : Int) = 0) := by intro s h; omega
    rw [if_neg (e _ (by omega)), if_neg (e _ (by omega)), if_neg (e _ (by omega)), if_neg (e _ (by omega))]
  · exact fillIn_eq s0
  · simp only [hp, allocParams, fillIn_eq s1, fillIn_eq s2, fillIn_eq s3]
    by_cases h : ((meant (dataWidth d) m.vsize : Int) ≠ 0 ∨
        (meant (dataWidth d) m.msize1 : Int) * (meant (dataWidth d) m.msize2 : Int) ≠ 0)
    · rw [if_pos h]
      simp only [Option.isSome_some, true_iff]
      rcases h with h | h
      · left; omega
      · right
        refine ⟨fun e => h ?_, fun e => h ?_⟩ <;> simp [e]
    · rw [if_neg h]
      simp only [Option.isSome_none, Bool.false_eq_true, false_iff]
      intro h'
      apply h
      rcases h' with h' | ⟨h1, h2⟩
      · left; omega
      · right
        exact Int.mul_ne_zero (by omega) (by omega)
  · intro p h
    simp only [hp, allocParams, fillIn_eq s1, fillIn_eq s2, fillIn_eq s3] at h
    split at h
    · have b1 := meant_lt (dataWidth_lt hd) s1
      have b2 := meant_lt (dataWidth_lt hd) s2
      rw [toSize_nat (by omega), toSize_nat (by omega)] at h
      cases h
      have := alloc_rest junk (meant (dataWidth d) m.vsize) (meant (dataWidth d) m.msize1) (meant (dataWidth d) m.msize2 : Int)
      refine ⟨this.2.2, this.1, this.2.1, ?_⟩
      rw [shape_alloc junk _ _ _ b2 hm]
      by_cases e : meant (dataWidth d) m.msize1 = 0 <;> simp [e]
    · cases h
  · cases hinfo : m.info with
    | none => exact ⟨_, { Names.alloc with title := some infoTitle }, rfl, rfl, rfl⟩
    | some p =>
      obtain ⟨n, hn⟩ := Option.isSome_iff_exists.mp (hi p hinfo)
      exact ⟨_, { n with title := some infoTitle }, rfl, by simp [titled, hn], rfl⟩
  · cases m.data <;> rfl

/-- A model with one parameter per column, prepped with three columns: the hypotheses of `C109_prep` are met. -/
example : (clear (0 : Int) (some { matrix := some ⟨[[1, 2, 3], [4, 5, 6]], 3⟩ }) { dsize := -1, vsize := -1 }) =
    .ok { dsize := 3, vsize := -1, parameters := some { vector := some [0, 0, 0], names := some Names.alloc },
          info := some { names := some { Names.alloc with title := some infoTitle } },
          data := some { matrix := some ⟨[[1, 2, 3], [4, 5, 6]], 3⟩ } } := by decide +kernel

/-- **C109, errors**: the error becomes 'd' exactly when the data has no width and a size is -1; otherwise it is as before. -/
theorem C109_error (junk : α) (d : Option (Page α)) (m : Model α) (hd : Narrow d) (hi : InfoOk m) :
    ∃ m' : Model α, clear junk d m = .ok m' ∧
      m'.error = if dataWidth d = 0 ∧ (m.dsize = -1 ∨ m.vsize = -1 ∨ m.msize1 = -1 ∨ m.msize2 = -1) then some 'd' else m.error := by
  rw [clear_ok junk d m hi, width_eq hd]
  refine ⟨_, rfl, ?_⟩
  simp only [checkSize]
  by_cases h : dataWidth d = 0
  · simp only [h, Int.natCast_zero, and_true, true_and]
    by_cases a : m.msize2 = -1 <;> by_cases b : m.msize1 = -1 <;> by_cases c : m.vsize = -1 <;>
      by_cases e : m.dsize = -1 <;> simp [a, b, c, e]
  · have h' : ¬ ((dataWidth d : Int) = 0) := by omega
    simp [h, h']

/-- **C109, parameters are never replaced**: a model with parameters keeps them, whatever the data. -/
theorem C109_kept (junk : α) (d : Option (Page α)) (m : Model α) (hi : InfoOk m) (p : Page α) (hp : m.parameters = some p) :
    ∃ m' : Model α, clear junk d m = .ok m' ∧ m'.parameters = some p := by
  rw [clear_ok junk d m hi]
  exact ⟨_, rfl, by simp [hp, allocParams]⟩

theorem titled_titled (p : Page α) : titled (titled p) = titled p := by
  unfold titled
  cases p.names <;> simp

theorem fillIn_fix {w w' : Int} {s : Int} (h : w ≠ -1) : fillIn w' (fillIn w s) = fillIn w s := by
  unfold fillIn
  by_cases e : s = -1 <;> simp [e, h]

/-- **C109, repeated preps**: once a model has been prepped, with data of positive width or with no size of -1, a second
prep -- with any other data of positive width, or with no data at all if the model has no size of -1 -- changes nothing,
neither the parameters' size nor the data pointer. -/
theorem C109_noop (junk junk' : α) (d d' : Option (Page α)) (m m' : Model α) (hd : Narrow d) (hd' : Narrow d') (hi : InfoOk m)
    (hdata : m.data.isSome ∨ d.isSome ∨ d' = none)
    (hw : (0 < dataWidth d ∧ 0 < dataWidth d') ∨ (m.dsize ≠ -1 ∧ m.vsize ≠ -1 ∧ m.msize1 ≠ -1 ∧ m.msize2 ≠ -1))
    (h : clear junk d m = .ok m') : clear junk' d' m' = .ok m' := by
  rw [clear_ok junk d m hi, width_eq hd] at h
  cases h
  have hi' : InfoOk ({ m with
      error := checkSize (dataWidth d) m.msize2 (checkSize (dataWidth d) m.msize1 (checkSize (dataWidth d) m.vsize (checkSize (dataWidth d) m.dsize m.error)))
      dsize := fillIn (dataWidth d) m.dsize
      parameters := allocParams junk (fillIn (dataWidth d) m.vsize) (fillIn (dataWidth d) m.msize1) (fillIn (dataWidth d) m.msize2) m.parameters
      info := some (titled (m.info.getD Page.empty))
      data := m.data.or d } : Model α) := by
    intro p hp
    cases hp
    cases hinfo : m.info with
    | none => simp [titled, Page.empty]
    | some q => simpa [titled] using hi q hinfo
  rw [clear_ok junk' d' _ hi', width_eq hd']
  simp only [Option.getD_some, titled_titled]
  have hn : (dataWidth d : Int) ≠ -1 := by omega
  have nodash : ∀ s : Int, (0 < dataWidth d' ∨ s ≠ -1) → ∀ e, checkSize (dataWidth d') s e = e := by
    intro s hs e; unfold checkSize; rw [if_neg (by omega)]
  have ed : checkSize (dataWidth d') (fillIn (dataWidth d) m.dsize) = id := by
    funext e
    apply nodash
    right
    unfold fillIn
    split <;> omega
  rw [nodash m.msize2 (by omega), nodash m.msize1 (by omega), nodash m.vsize (by omega), ed, fillIn_fix hn]
  have ep : allocParams junk' (fillIn (dataWidth d') m.vsize) (fillIn (dataWidth d') m.msize1) (fillIn (dataWidth d') m.msize2)
      (allocParams junk (fillIn (dataWidth d) m.vsize) (fillIn (dataWidth d) m.msize1) (fillIn (dataWidth d) m.msize2) m.parameters) =
      allocParams junk (fillIn (dataWidth d) m.vsize) (fillIn (dataWidth d) m.msize1) (fillIn (dataWidth d) m.msize2) m.parameters := by
    cases hp : m.parameters with
    | some p => rfl
    | none =>
      simp only [allocParams]
      by_cases c : fillIn (dataWidth d) m.vsize ≠ 0 ∨ fillIn (dataWidth d) m.msize1 * fillIn (dataWidth d) m.msize2 ≠ 0
      · rw [if_pos c]
      · rw [if_neg c]
        simp only []
        rw [if_neg]
        intro c'
        apply c
        rcases c' with c' | c'
        · left; unfold fillIn at c' ⊢; split at c' <;> simp_all <;> omega
        · right
          have z := c'
          apply Int.mul_ne_zero
          · have : fillIn (dataWidth d') m.msize1 ≠ 0 := fun e => z (by simp [e])
            unfold fillIn at this ⊢; split at this <;> simp_all <;> omega
          · have : fillIn (dataWidth d') m.msize2 ≠ 0 := fun e => z (by simp [e])
            unfold fillIn at this ⊢; split at this <;> simp_all <;> omega
  rw [ep]
  have edata : (m.data.or d).or d' = m.data.or d := by
    rcases hdata with h | h | h
    · cases hm : m.data with
      | none => simp [hm] at h
      | some x => rfl
    · cases hm : m.data with
      | none => cases hdd : d with
        | none => simp [hdd] at h
        | some x => rfl
      | some x => rfl
    · simp [h]
  rw [edata]
  rfl

/-- A model with one parameter per column, prepped with three columns and then with one: the second prep does nothing. -/
example : ∃ m' : Model Int,
    clear (0 : Int) (some { matrix := some ⟨[[1, 2, 3]], 3⟩ }) { dsize := -1, vsize := -1 } = .ok m' ∧
    clear (7 : Int) (some { matrix := some ⟨[[1]], 1⟩ }) m' = .ok m' ∧
    m'.parameters.bind (·.vector) = some [0, 0, 0] := by
  refine ⟨_, rfl, ?_, ?_⟩ <;> decide +kernel

/-- The documentation says that preps after the first are no-ops. With a size of -1 and no data the second prep marks the
model with the dimension error 'd', although the parameters are fine. -/
theorem C109_noop_refuted : ∃ m' m'' : Model Int,
    clear (0 : Int) (some { matrix := some ⟨[[1, 2, 3]], 3⟩ }) { dsize := -1, vsize := -1 } = .ok m' ∧ m'.error = none ∧
    clear (0 : Int) none m' = .ok m'' ∧ m''.error = some 'd' ∧ m''.parameters = m'.parameters := by
  refine ⟨_, _, rfl, ?_, rfl, ?_, ?_⟩ <;> decide +kernel

/-- A model declared with a vector of 2 and `msize1 = 3`, `msize2 = 0` (no matrix) gets a 2 by 3 matrix and no vector. -/
theorem C109_msize_refuted : ∃ m' : Model Int,
    clear (0 : Int) none { vsize := 2, msize1 := 3 } = .ok m' ∧
    m'.parameters = some { matrix := some ⟨[[0, 0, 0], [0, 0, 0]], 3⟩, names := some Names.alloc } := by
  refine ⟨_, rfl, ?_⟩; decide +kernel

/-! ## Setting parameters -/

theorem fillRow_matrix (ap : List α) (i n : Nat) : ∀ (j : Int) (k : Nat) (p : Page α) (r : Page α × Nat),
    Conv.fillRow ap i n j k p = .ok r → r.1.matrix.isSome = p.matrix.isSome := by
  induction n with
  | zero => intro j k p r h; cases h; rfl
  | succ n ih =>
    intro j k p r h
    unfold Conv.fillRow at h
    obtain ⟨x, _, h⟩ := Res.bind_eq_ok.1 h
    rw [ih _ _ _ _ h, (Conv.setBody_parts p i j x).1]

theorem fillRows_matrix (ap : List α) (st : Int) (c n : Nat) : ∀ (i k : Nat) (p : Page α) (r : Page α × Nat),
    Conv.fillRows ap st c n i k p = .ok r → r.1.matrix.isSome = p.matrix.isSome := by
  induction n with
  | zero => intro i k p r h; cases h; rfl
  | succ n ih =>
    intro i k p r h
    unfold Conv.fillRows at h
    obtain ⟨x, hx, h⟩ := Res.bind_eq_ok.1 h
    rw [ih _ _ _ _ h, fillRow_matrix ap i c st k p x hx]

theorem fill_matrix {ap : List α} {p q : Page α} {n : Nat} (h : Conv.fill ap p = .ok (q, n)) :
    q.matrix.isSome = p.matrix.isSome := fillRows_matrix ap _ _ _ _ _ _ _ h

/-- **C109, set_parameters**: for a model without parameters and with `vsize = k` (no matrix, `dsize` anything but -1), given at
least `k` values: the copy has no new error and its parameter vector is exactly the first `k` values. -/
theorem C109_set_parameters (junk : α) (m : Model α) (k : Nat) (hk : 0 < k) (hk' : k < 2 ^ 31) (ap : List α) (hl : k ≤ ap.length)
    (hv : m.vsize = k) (h1 : m.msize1 = 0) (h2 : m.msize2 = 0) (hd : m.dsize ≠ -1) (hp : m.parameters = none) (hi : m.info = none) :
    ∃ m' p : _, setParameters junk m ap = .ok m' ∧ m'.error = m.error ∧ m'.parameters = some p ∧
      p.vector = some (ap.take k) ∧ p.matrix = none ∧ m'.dsize = m.dsize := by
  unfold setParameters
  have hi' : InfoOk m := by intro p h; rw [hi] at h; cases h
  rw [clear_ok junk none m hi']
  have wn : width (none : Option (Page α)) = 0 := rfl
  have f : ∀ s : Int, s ≠ -1 → fillIn 0 s = s := fun s h => by unfold fillIn; rw [if_neg h]
  have ep : allocParams junk (fillIn 0 m.vsize) (fillIn 0 m.msize1) (fillIn 0 m.msize2) m.parameters =
      some ({ vector := some (List.replicate k junk), names := some Names.alloc } : Page α) := by
    rw [hp, hv, h1, h2, f _ (by omega), f _ (by omega)]
    simp only [allocParams]
    rw [if_pos (by left; omega), toSize_nat (by omega)]
    simp [Page.allocWith, Page.allocSizes, toSize, Nat.ne_of_gt hk]
  simp only [wn, ep, Res.bind]
  obtain ⟨q, hq, hrest, hvec, hmat, hsome⟩ := Conv.C36_fill
    ({ vector := some (List.replicate k junk), names := some Names.alloc } : Page α)
    ⟨(fun m h => by cases h), (fun m v h => by cases h)⟩ ap (by simpa [Conv.height, Conv.width] using hl)
  simp only [fillParams, hq, Res.bind]
  refine ⟨_, q, rfl, ?_, rfl, ?_, ?_, ?_⟩
  · simp [hv, h1, h2, checkSize, hd]
  · simp only [Conv.height, Conv.width] at hvec
    have hv' := hvec _ rfl
    have hs0 : ∀ i, (q.vector.bind (·[i]?)).isSome = ((List.replicate k junk)[i]?).isSome := fun i => hsome (.vec i)
    cases hqv : q.vector with
    | none => have := hs0 0; simp [hqv, hk] at this
    | some u =>
      congr 1
      apply List.ext_getElem?
      intro i
      by_cases hik : i < k
      · have := hv' i (by simpa using hik)
        simp [Access.content, hqv] at this
        rw [this, List.getElem?_take_of_lt hik]
      · have := hs0 i
        simp [hqv, hik] at this
        rw [List.getElem?_eq_none this, List.getElem?_eq_none (by simp; omega)]
  · cases hqm : q.matrix with
    | none => rfl
    | some mm =>
      exfalso
      have := fill_matrix hq
      simp [hqm] at this
  · exact f _ hd

/-- A normal distribution with mean 4 and standard deviation 2; a spare value is ignored. -/
example : ∃ m' : Model Int, setParameters (9 : Int) { dsize := 1, vsize := 2 } [4, 2, 77] = .ok m' ∧ m'.error = none ∧
    m'.parameters = some { vector := some [4, 2], names := some Names.alloc } := by
  refine ⟨_, rfl, ?_, ?_⟩ <;> decide +kernel

/-- **C109, set_parameters with a matrix**: for a model with a parameter matrix of `r` by `c` and either no parameter vector
or one of length `r`: the values are used in row order, the vector element of a row before its matrix elements. -/
theorem C109_set_parameters_matrix (junk : α) (m : Model α) (v r c : Nat) (hr : 0 < r) (hc : 0 < c) (hr' : r < 2 ^ 31)
    (hvr : v = 0 ∨ v = r) (ap : List α) (hl : r * ((if v = 0 then 0 else 1) + c) ≤ ap.length)
    (hv : m.vsize = v) (h1 : m.msize1 = r) (h2 : m.msize2 = c) (hd : m.dsize ≠ -1) (hp : m.parameters = none) (hi : m.info = none) :
    ∃ m' p : _, setParameters junk m ap = .ok m' ∧ m'.error = m.error ∧ m'.parameters = some p ∧
      (v ≠ 0 → ∀ i < r, Access.content p (.vec i) = ap[i * (1 + c)]?) ∧
      (∀ i < r, ∀ j < c, Access.content p (.mat i j) =
        ap[i * ((if v = 0 then 0 else 1) + c) + ((if v = 0 then 0 else 1) + j)]?) := by
  unfold setParameters
  have hi' : InfoOk m := by intro p h; rw [hi] at h; cases h
  rw [clear_ok junk none m hi']
  have wn : width (none : Option (Page α)) = 0 := rfl
  have f : ∀ s : Int, s ≠ -1 → fillIn 0 s = s := fun s h => by unfold fillIn; rw [if_neg h]
  have hrc : (r : Int) * c ≠ 0 := Int.mul_ne_zero (by omega) (by omega)
  have ep : allocParams junk (fillIn 0 m.vsize) (fillIn 0 m.msize1) (fillIn 0 m.msize2) m.parameters =
      some ({ vector := if v = 0 then none else some (List.replicate v junk), matrix := some (Mat.fresh junk r c),
              names := some Names.alloc } : Page α) := by
    rw [hp, hv, h1, h2, f _ (by omega), f _ (by omega), f _ (by omega)]
    simp only [allocParams]
    rw [if_pos (Or.inr hrc), toSize_nat (by omega), toSize_nat (by omega)]
    simp [Page.allocWith, Page.allocSizes, Nat.ne_of_gt hc, hr, hc]
  simp only [wn, ep, Res.bind]
  obtain ⟨q, hq, hrest, hvec, hmat, hsome⟩ := Conv.C36_fill
    ({ vector := if v = 0 then none else some (List.replicate v junk), matrix := some (Mat.fresh junk r c),
       names := some Names.alloc } : Page α)
    ⟨(fun m h => by cases h; simp [Mat.WF, Mat.fresh]), (fun m u h h' => by
      cases h
      by_cases v0 : v = 0
      · simp [v0] at h'
      · simp [v0] at h'; subst h'; simp [Mat.size1, Mat.fresh]; omega)⟩ ap
    (by by_cases v0 : v = 0 <;> simpa [Conv.height, Conv.width, v0, Mat.size1, Mat.fresh] using hl)
  simp only [fillParams, hq, Res.bind]
  refine ⟨_, q, rfl, ?_, rfl, ?_, ?_⟩
  · have a : (v : Int) ≠ -1 := by omega
    have b : (r : Int) ≠ -1 := by omega
    have c : (c : Int) ≠ -1 := by omega
    simp [hv, h1, h2, checkSize, hd, a, b, c]
  · intro v0 i hi
    have := hvec (List.replicate v junk) (by simp [v0]) i (by simpa [Conv.height, Mat.size1, Mat.fresh] using hi)
    simpa [Conv.width, v0, Mat.fresh] using this
  · intro i hi j hj
    have := hmat _ rfl i j (by simpa [Mat.size1, Mat.fresh] using hi) (by simpa [Mat.fresh] using hj)
    by_cases v0 : v = 0
    · simpa [Conv.width, v0, Mat.fresh, Nat.add_assoc] using this
    · simpa [Conv.width, v0, Mat.fresh, Nat.add_assoc] using this

example : ∃ m' : Model Int, setParameters (9 : Int) { dsize := 2, vsize := 2, msize1 := 2, msize2 := 2 } [1, 2, 3, 4, 5, 6] = .ok m' ∧
    m'.parameters = some { vector := some [1, 4], matrix := some ⟨[[2, 3], [5, 6]], 2⟩, names := some Names.alloc } := by
  refine ⟨_, rfl, ?_⟩; decide +kernel

/-- With fewer values than the parameter vector has elements, memory past the list is read. -/
theorem C109_set_too_few (junk : α) (m : Model α) (k : Nat) (hk' : k < 2 ^ 31) (ap : List α) (hl : ap.length < k)
    (hv : m.vsize = k) (h1 : m.msize1 = 0) (h2 : m.msize2 = 0) (hp : m.parameters = none) (hi : m.info = none) :
    setParameters junk m ap = .ub := by
  unfold setParameters
  have hi' : InfoOk m := by intro p h; rw [hi] at h; cases h
  rw [clear_ok junk none m hi']
  have wn : width (none : Option (Page α)) = 0 := rfl
  have f : ∀ s : Int, s ≠ -1 → fillIn 0 s = s := fun s h => by unfold fillIn; rw [if_neg h]
  have hk : k ≠ 0 := by omega
  have ep : allocParams junk (fillIn 0 m.vsize) (fillIn 0 m.msize1) (fillIn 0 m.msize2) m.parameters =
      some ({ vector := some (List.replicate k junk), names := some Names.alloc } : Page α) := by
    rw [hp, hv, h1, h2, f _ (by omega), f _ (by omega)]
    simp only [allocParams]
    rw [if_pos (by left; omega), toSize_nat (by omega)]
    simp [Page.allocWith, Page.allocSizes, toSize, hk]
  simp only [wn, ep, Res.bind, fillParams]
  rw [Conv.C36_too_few_ub _ ap (by simpa [Conv.height, Conv.width] using hl)]

/-- **C109, set_parameters of a model sized by its data**: a parameter size of -1 always gives the error 'd'; with
`vsize = -1` and no matrix there are no parameters at all, and the values are not looked at. -/
theorem C109_set_undetermined (junk : α) (m : Model α) (ap : List α)
    (hv : m.vsize = -1) (h1 : m.msize1 = 0) (h2 : m.msize2 = 0) (hp : m.parameters = none) (hi : m.info = none) :
    ∃ m' : Model α, setParameters junk m ap = .ok m' ∧ m'.error = some 'd' ∧ m'.parameters = none := by
  unfold setParameters
  have hi' : InfoOk m := by intro p h; rw [hi] at h; cases h
  rw [clear_ok junk none m hi']
  have wn : width (none : Option (Page α)) = 0 := rfl
  simp [wn, hv, h1, h2, hp, fillIn, allocParams, Res.bind, fillParams]

end Apop.Mod
