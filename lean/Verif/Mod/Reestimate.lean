import Verif.Mod.ClearProps
import Verif.Access.Props
import Verif.Dist.TEstimate

/-! # C201: estimating an estimated model again

`apop_estimate` (apop_model.m4.c:229-235) copies the model, parameters and info page included (apop_model.m4.c:171-176; that a copied data set is equal to the original and answers alike is C06 and C03), preps it (C109) and calls the estimate method. -/

namespace Apop.Mod
variable {α δ : Type}

/-! ## The model -/

/-- What tells the stock distributions' estimate methods apart: the parameters' names, the estimates for given data, and the log likelihood of data at given parameters. -/
structure Stock (δ α : Type) where
  names : List CStr
  est : δ → List α
  ll : δ → List α → α

/-- Writing to a vector, from an index on. -/
def setFrom : List α → Nat → List α → Res (List α)
  | v, _, [] => .ok v
  | v, i, x :: xs => (wr v i x).bind fun v => setFrom v (i + 1) xs

/-- The parameters set by position and the names added: `normal_estimate` (model/apop_normal.c:82-85), `lognormal_estimate` (200-204), `exponential_estimate` (model/apop_exponential.c:53-57), `bernoulli_estimate` (model/apop_bernoulli.c:35-36), `poisson_estimate` (model/apop_poisson.c:45-46), `beta_estimate` (model/apop_beta.c:31-35), `uniform_estimate` (model/apop_uniform.c:49-51). -/
def byPosition (s : Stock δ α) (d : δ) (p : Page α) : Res (Page α) :=
  match p.vector, p.names with
  | some v, some n => (setFrom v 0 (s.est d)).bind fun v => .ok { p with vector := some v, names := some (n.addAll s.names 'r') }
  | _, _ => .ub

/-- The parameters added as named elements: `apop_t_estimate`, model/apop_t.c:19-21. -/
def byName (junk : α) (s : Stock δ α) (d : δ) (p : Page α) : Res (Page α) := Access.addAll junk p (s.names.zip (s.est d))

/-- The name under which the log likelihood is reported, e.g. model/apop_t.c:22. -/
def llName : CStr := str "log likelihood"

/-- The log likelihood's line, e.g. model/apop_t.c:22, model/apop_normal.c:96: the likelihood functions read the first elements of the parameters' vector. -/
def report (junk : α) (s : Stock δ α) (d : δ) (p i : Page α) : Res (Page α) :=
  Access.addNamed junk i (some llName) (s.ll d ((p.vector.getD []).take s.names.length))

/-- An estimate method, with one of the two ways to fill the parameters. -/
def estBody (junk : α) (s : Stock δ α) (fill : δ → Page α → Res (Page α)) (d : δ) (m : Model α) : Res (Model α) :=
  match m.parameters, m.info with
  | some p, some i => (fill d p).bind fun p => (report junk s d p i).bind fun i => .ok { m with parameters := some p, info := some i }
  | _, _ => .ub

/-- `apop_estimate`, apop_model.m4.c:229-235; `page` gives the data set itself to the prep. -/
def estimate (junk : α) (s : Stock δ α) (fill : δ → Page α → Res (Page α)) (page : δ → Option (Page α)) (m : Model α) (d : δ) : Res (Model α) :=
  (clear junk (page d) m).bind fun m => estBody junk s fill d m

/-- A history: each estimate starts from the model the last one returned. -/
def estimates (junk : α) (s : Stock δ α) (fill : δ → Page α → Res (Page α)) (page : δ → Option (Page α)) : Model α → List δ → Res (Model α)
  | m, [] => .ok m
  | m, d :: ds => (estimate junk s fill page m d).bind fun m => estimates junk s fill page m ds

/-! ## Specification -/

/-- A model as the library ships it: a parameter vector of the size of the names, nothing estimated. -/
structure Fresh (s : Stock δ α) (m : Model α) : Prop where
  vsize : m.vsize = s.names.length
  size : s.names.length < 2 ^ 31
  pos : s.names ≠ []
  m1 : m.msize1 = 0
  m2 : m.msize2 = 0
  params : m.parameters = none
  info : m.info = none

/-- The estimates are as many as the names. -/
def Stock.Sized (s : Stock δ α) : Prop := ∀ d, (s.est d).length = s.names.length

/-- No two names alike up to case. -/
def Stock.Distinct (s : Stock δ α) : Prop := ∀ (i j : Nat) (a b : CStr), s.names[i]? = some a → s.names[j]? = some b → Names.SameUpToCase a b → i = j

/-- What `apop_data_get(m->info, .rowname="log likelihood")` gives. -/
def reported (m : Model α) : Res (Access.Got α) := Access.get m.info.toList { rowname := some llName }

/-- What `apop_data_get(m->parameters, .rowname=name)` gives. -/
def parameter (m : Model α) (name : CStr) : Res (Access.Got α) := Access.get m.parameters.toList { rowname := some name }

/-! ## Proofs -/

theorem setFrom_eq : ∀ (xs w v : List α), w.length = xs.length → setFrom (v ++ w) v.length xs = .ok (v ++ xs)
  | [], w, v, h => by
    have : w = [] := List.length_eq_zero_iff.1 (by simpa using h)
    simp [setFrom, this]
  | x :: xs, [], v, h => by simp at h
  | x :: xs, y :: w, v, h => by
    rw [setFrom, wr_of_lt (by simp)]
    have e : (v ++ y :: w).set v.length x = (v ++ [x]) ++ w := by simp [List.set_append_right]
    have := setFrom_eq xs w (v ++ [x]) (by simpa using h)
    simpa [e, Res.bind] using this

/-- The search finds the first of equal names. -/
theorem hashPass_first (key : CStr) : ∀ (l : List CStr) (i k : Nat), l[i]? = some key → (∀ j a, j < i → l[j]? = some a → ¬ Names.SameUpToCase key a) →
    Names.hashPass key l (l.map fun s => some (djb2 s)) k = .ok (some (k + i))
  | [], i, k, h, _ => by simp at h
  | a :: l, 0, k, h, _ => by
    simp only [List.getElem?_cons_zero, Option.some.injEq] at h
    subst h
    simp [Names.hashPass, caseEq_refl]
  | a :: l, i + 1, k, h, hf => by
    have h0 := hf 0 a (by omega) (by simp)
    rw [Names.sameUpToCase_iff] at h0
    simp only [List.map_cons, Names.hashPass]
    rw [if_neg (fun hc => h0 hc.2)]
    rw [hashPass_first key l i (k + 1) (by simpa using h) (fun j b hj hb => hf (j + 1) b (by omega) (by simpa using hb))]
    congr 2; omega

theorem find_first {n : Names} (hn : n.Good) (key : CStr) (i : Nat) (h : n.row[i]? = some key) (hf : ∀ j a, j < i → n.row[j]? = some a → ¬ Names.SameUpToCase key a) :
    n.find (some key) 'r' = .ok (i : Int) := by
  have h1 : n.rowhash = n.row.map fun s => some (djb2 s) := hn.2.1
  have hne : n.rowhash.isEmpty = false := by
    rw [h1]; cases hr : n.row with
    | nil => rw [hr] at h; simp at h
    | cons a l => rfl
  unfold Names.find Names.hashFirst
  simp only [Names.hashFor, Names.listFor, true_or, if_true, hne, Bool.false_eq_true, if_false]
  rw [h1, hashPass_first key n.row i 0 h hf]
  simp

/-- Looking up the first of equal names gives the number beside it. -/
theorem get_first {p : Page α} {n : Names} {v : List α} (hp : p.names = some n) (hn : n.Good) (hv : p.vector = some v) (hm : p.matrix = none) (key : CStr) (i : Nat) (x : α)
    (h : n.row[i]? = some key) (hx : v[i]? = some x) (hf : ∀ j a, j < i → n.row[j]? = some a → ¬ Names.SameUpToCase key a) :
    Access.get [p] { rowname := some key } = .ok (.val x) := by
  have h1 : Access.rowOf p.names { rowname := some key } = .ok (some i) := by
    simp [Access.rowOf, hp, find_first hn key i h hf]
  have h3 : Access.colOf p.names { rowname := some key } = .ok (some 0) := by simp [Access.colOf]
  unfold Access.get Access.resolve
  simp only [Access.selectPage, h1, h3, Res.bind_ok]
  simp [Access.getBody, Access.usesVector, hm, hv, hx]

theorem addAll_row (n : Names) (l : List CStr) : (n.addAll l 'r').row = n.row ++ l := by
  induction l generalizing n with
  | nil => simp [Names.addAll]
  | cons a l ih =>
    have : n.addAll (a :: l) 'r' = (n.add (some a) 'r').1.addAll l 'r' := rfl
    rw [this, ih]
    simp [Names.add]

/-- Adding named elements over an unnamed vector as long as the list fills it. -/
theorem addAll_over (junk : α) : ∀ (l l0 : List (CStr × α)) (w : List α) (p : Page α) (n : Names), w.length = l.length → l0 ++ l ≠ [] → p.names = some n → n.Good → n.row = l0.map Prod.fst →
    p.vector = some (l0.map Prod.snd ++ w) → p.matrix = none → ∃ p', Access.addAll junk p l = .ok p' ∧ Access.Aligned p' (l0 ++ l)
  | [], l0, w, p, n, hw, hne, hn, hg, hr, hv, hm => by
    have : w = [] := List.length_eq_zero_iff.1 (by simpa using hw)
    subst this
    exact ⟨p, rfl, n, hn, hg, by simpa using hr, Or.inr ⟨hne, by simpa using hv⟩, hm⟩
  | a :: l, l0, [], p, n, hw, _, _, _, _, _, _ => by simp at hw
  | a :: l, l0, y :: w, p, n, hw, _, hn, hg, hr, hv, hm => by
    have hr' : (n.add (some a.1) 'r').1.row = n.row ++ [a.1] := by simp [Names.add]
    have hlen : (n.add (some a.1) 'r').1.row.length = l0.length + 1 := by rw [hr', hr]; simp
    have step : Access.addNamed junk p (some a.1) a.2 = .ok { p with names := some (n.add (some a.1) 'r').1, vector := some ((l0 ++ [a]).map Prod.snd ++ w) } := by
      unfold Access.addNamed
      rw [hn]
      simp only [hlen, hv, Option.getD_some]
      rw [if_neg (show ¬ l0.length + 1 = 0 by omega), if_neg (by simp), wr_of_lt (by simp)]
      simp only [Nat.add_sub_cancel, Res.bind_ok]
      congr 3
      rw [List.set_append_right _ _ (by simp)]
      simp
    obtain ⟨p', e, h'⟩ := addAll_over junk l (l0 ++ [a]) w { p with names := some (n.add (some a.1) 'r').1, vector := some ((l0 ++ [a]).map Prod.snd ++ w) } _ (by simpa using hw) (by simp) rfl (Names.good_add hg _ _) (by rw [hr', hr]; simp) rfl hm
    refine ⟨p', ?_, by simpa using h'⟩
    simp only [Access.addAll, List.foldlM_cons, step, Res.bind_ok]
    exact e

/-- Adding to named elements. -/
theorem addAll_aligned (junk : α) : ∀ (l l0 : List (CStr × α)) (p : Page α), Access.Aligned p l0 → ∃ p', Access.addAll junk p l = .ok p' ∧ Access.Aligned p' (l0 ++ l)
  | [], l0, p, h => ⟨p, rfl, by simpa using h⟩
  | a :: l, l0, p, h => by
    obtain ⟨p1, e1, h1⟩ := Access.addNamed_aligned junk p l0 h a.1 a.2
    obtain ⟨p2, e2, h2⟩ := addAll_aligned junk l _ p1 h1
    refine ⟨p2, ?_, by simpa using h2⟩
    simp only [Access.addAll, List.foldlM_cons, e1, Res.bind_ok]
    exact e2

theorem titled_aligned {p : Page α} {l : List (CStr × α)} (h : Access.Aligned p l) : Access.Aligned (titled p) l := by
  obtain ⟨n, hn, hg, hr, hv, hm⟩ := h
  exact ⟨{ n with title := some infoTitle }, by simp [titled, hn], hg, hr, hv, hm⟩

theorem empty_aligned : Access.Aligned (Page.empty : Page α) [] := ⟨Names.alloc, rfl, Names.good_alloc, rfl, Or.inl ⟨rfl, rfl⟩, rfl⟩

/-- The state before an estimate's body: parameters meeting `I`, and an info page with `l`. -/
def Ready (I : Page α → Prop) (l : List (CStr × α)) (m : Model α) : Prop := ∃ p i, m.parameters = some p ∧ m.info = some i ∧ I p ∧ Access.Aligned i l

/-- The unestimated parameters. -/
def Blank (s : Stock δ α) (p : Page α) : Prop := ∃ w : List α, w.length = s.names.length ∧ p.vector = some w ∧ p.names = some Names.alloc ∧ p.matrix = none

theorem clear_fresh (junk : α) {s : Stock δ α} {m : Model α} (h : Fresh s m) (d : Option (Page α)) : ∃ m', clear junk d m = .ok m' ∧ Ready (Blank s) [] m' := by
  rw [clear_ok junk d m (fun p hp => by rw [h.info] at hp; simp at hp)]
  have hs := h.size
  have hl : s.names.length ≠ 0 := by rw [ne_eq, List.length_eq_zero_iff]; exact h.pos
  refine ⟨_, rfl, Page.allocWith junk s.names.length 0 0, titled Page.empty, ?_, by simp [h.info], ?_, titled_aligned empty_aligned⟩
  · have e1 : fillIn (width d) m.vsize = (s.names.length : Int) := by rw [h.vsize, fillIn, if_neg (by omega)]
    have e2 : fillIn (width d) m.msize1 = 0 := by rw [h.m1]; simp [fillIn]
    have e3 : fillIn (width d) m.msize2 = 0 := by rw [h.m2]; simp [fillIn]
    simp only [e1, e2, e3, h.params, allocParams]
    rw [if_pos (Or.inl (by omega)), toSize_nat (by omega)]
    rfl
  · exact ⟨List.replicate s.names.length junk, by simp, by simp [Page.allocWith, Page.allocSizes, hl], rfl, by simp [Page.allocWith, Page.allocSizes]⟩

theorem clear_ready (junk : α) {I : Page α → Prop} {l : List (CStr × α)} {m : Model α} (h : Ready I l m) (d : Option (Page α)) : ∃ m', clear junk d m = .ok m' ∧ Ready I l m' := by
  obtain ⟨p, i, hp, hi, hI, hl⟩ := h
  rw [clear_ok junk d m (fun q hq => by rw [hi] at hq; cases hq; obtain ⟨n, hn, -⟩ := hl; simp [hn])]
  exact ⟨_, rfl, p, titled i, by simp [hp, allocParams], by simp [hi], hI, titled_aligned hl⟩

/-- One estimate's body: if the filling works, so does it, and reports the likelihood at the parameters it left. -/
theorem body_step (junk : α) {s : Stock δ α} {fill : δ → Page α → Res (Page α)} {I J : Page α → Prop} {d : δ} {l : List (CStr × α)} {m : Model α} {x : List α}
    (hfill : ∀ p, I p → ∃ p', fill d p = .ok p' ∧ J p' ∧ (p'.vector.getD []).take s.names.length = x) (h : Ready I l m) :
    ∃ m', estBody junk s fill d m = .ok m' ∧ Ready J (l ++ [(llName, s.ll d x)]) m' := by
  obtain ⟨p, i, hp, hi, hI, hl⟩ := h
  obtain ⟨p', e1, hJ, hx⟩ := hfill p hI
  obtain ⟨i', e2, hl'⟩ := Access.addNamed_aligned junk i l hl llName (s.ll d x)
  refine ⟨{ m with parameters := some p', info := some i' }, ?_, p', i', rfl, rfl, hJ, hl'⟩
  unfold estBody report
  rw [hp, hi]
  simp only [e1, hx, e2, Res.bind]

/-- Parameters set by position: `x`, and the names once or more. -/
def Pos (s : Stock δ α) (x : List α) (p : Page α) : Prop := x.length = s.names.length ∧ p.vector = some x ∧ p.matrix = none ∧ ∃ n rest, p.names = some n ∧ n.Good ∧ n.row = s.names ++ rest

theorem fill_pos {s : Stock δ α} (hs : s.Sized) (d : δ) {p : Page α} {v : List α} {n : Names} (hv : p.vector = some v) (hl : v.length = s.names.length) (hn : p.names = some n) (hg : n.Good) (hm : p.matrix = none)
    (hr : ∃ rest, n.row ++ s.names = s.names ++ rest) : ∃ p', byPosition s d p = .ok p' ∧ Pos s (s.est d) p' ∧ (p'.vector.getD []).take s.names.length = s.est d := by
  have e : setFrom v 0 (s.est d) = .ok (s.est d) := by
    have := setFrom_eq (s.est d) v [] (by rw [hl, hs d])
    simpa using this
  obtain ⟨rest, hr⟩ := hr
  refine ⟨{ p with vector := some (s.est d), names := some (n.addAll s.names 'r') }, ?_, ⟨hs d, rfl, hm, _, rest, rfl, Names.good_addAll hg _ _, by rw [addAll_row, hr]⟩, ?_⟩
  · unfold byPosition
    rw [hv, hn]
    simp [e, Res.bind]
  · simp [← hs d]

theorem fill_pos_blank {s : Stock δ α} (hs : s.Sized) (d : δ) {p : Page α} (h : Blank s p) : ∃ p', byPosition s d p = .ok p' ∧ Pos s (s.est d) p' ∧ (p'.vector.getD []).take s.names.length = s.est d := by
  obtain ⟨w, hw, hv, hn, hm⟩ := h
  exact fill_pos hs d hv hw hn Names.good_alloc hm ⟨[], by simp [Names.alloc]⟩

theorem fill_pos_pos {s : Stock δ α} (hs : s.Sized) (d : δ) {x : List α} {p : Page α} (h : Pos s x p) : ∃ p', byPosition s d p = .ok p' ∧ Pos s (s.est d) p' ∧ (p'.vector.getD []).take s.names.length = s.est d := by
  obtain ⟨hx, hv, hm, n, rest, hn, hg, hr⟩ := h
  exact fill_pos hs d hv hx hn hg hm ⟨rest ++ s.names, by rw [hr, List.append_assoc]⟩

/-- Parameters added by name, over a history. -/
def Nam (s : Stock δ α) (ds : List δ) (p : Page α) : Prop := Access.Aligned p (ds.flatMap fun d => s.names.zip (s.est d))

theorem zip_fst {s : Stock δ α} (hs : s.Sized) (d : δ) : (s.names.zip (s.est d)).map Prod.fst = s.names ∧ (s.names.zip (s.est d)).map Prod.snd = s.est d ∧ (s.names.zip (s.est d)).length = s.names.length := by
  have := hs d
  exact ⟨by rw [List.map_fst_zip (by omega)], by rw [List.map_snd_zip (by omega)], by rw [List.length_zip]; omega⟩

theorem nam_head {s : Stock δ α} (hs : s.Sized) (hp : s.names ≠ []) {d : δ} {ds : List δ} {p : Page α} (h : Nam s (d :: ds) p) :
    (p.vector.getD []).take s.names.length = s.est d ∧ p.vector = some ((d :: ds).flatMap s.est) ∧ p.matrix = none ∧ ∃ n rest, p.names = some n ∧ n.Good ∧ n.row = s.names ++ rest := by
  obtain ⟨n, hn, hg, hr, hv, hm⟩ := h
  obtain ⟨z1, z2, z3⟩ := zip_fst hs d
  have hne : s.names.zip (s.est d) ≠ [] := by
    rw [ne_eq, ← List.length_eq_zero_iff, z3, List.length_eq_zero_iff]; exact hp
  have hv' : p.vector = some ((d :: ds).flatMap s.est) := by
    rcases hv with ⟨h0, -⟩ | ⟨-, hv⟩
    · rw [List.flatMap_cons, List.append_eq_nil_iff] at h0
      exact absurd h0.1 hne
    · rw [hv, List.map_flatMap]
      congr 2; funext d'; exact (zip_fst hs d').2.1
  refine ⟨?_, hv', hm, n, ds.flatMap fun _ => s.names, hn, hg, ?_⟩
  · rw [hv', Option.getD_some, List.flatMap_cons, ← hs d, List.take_left]
  · rw [hr, List.flatMap_cons, List.map_append, z1, List.map_flatMap]
    congr 2; funext d'; exact (zip_fst hs d').1

theorem fill_nam_blank (junk : α) {s : Stock δ α} (hs : s.Sized) (hp : s.names ≠ []) (d : δ) {p : Page α} (h : Blank s p) : ∃ p', byName junk s d p = .ok p' ∧ Nam s [d] p' ∧ (p'.vector.getD []).take s.names.length = s.est d := by
  obtain ⟨w, hw, hv, hn, hm⟩ := h
  obtain ⟨z1, z2, z3⟩ := zip_fst hs d
  have hne : s.names.zip (s.est d) ≠ [] := by
    rw [ne_eq, ← List.length_eq_zero_iff, z3, List.length_eq_zero_iff]; exact hp
  obtain ⟨p', e, ha⟩ := addAll_over junk (s.names.zip (s.est d)) [] w p Names.alloc (by rw [hw, z3]) (by simpa using hne) hn Names.good_alloc rfl (by simpa using hv) hm
  have hN : Nam s [d] p' := by simpa [Nam] using ha
  exact ⟨p', e, hN, (nam_head hs hp hN).1⟩

theorem fill_nam_nam (junk : α) {s : Stock δ α} (hs : s.Sized) (hp : s.names ≠ []) (d0 d : δ) {ds : List δ} {p : Page α} (h : Nam s (d0 :: ds) p) :
    ∃ p', byName junk s d p = .ok p' ∧ Nam s (d0 :: ds ++ [d]) p' ∧ (p'.vector.getD []).take s.names.length = s.est d0 := by
  obtain ⟨p', e, ha⟩ := addAll_aligned junk (s.names.zip (s.est d)) _ p h
  have hN : Nam s (d0 :: ds ++ [d]) p' := by
    unfold Nam
    rw [List.flatMap_append]
    simpa using ha
  exact ⟨p', e, hN, (nam_head hs hp hN).1⟩

theorem first_step (junk : α) {s : Stock δ α} {fill : δ → Page α → Res (Page α)} {page : δ → Option (Page α)} {J : Page α → Prop} {m : Model α} (hf : Fresh s m) (d : δ)
    (hfill : ∀ p, Blank s p → ∃ p', fill d p = .ok p' ∧ J p' ∧ (p'.vector.getD []).take s.names.length = s.est d) :
    ∃ m', estimate junk s fill page m d = .ok m' ∧ Ready J [(llName, s.ll d (s.est d))] m' := by
  obtain ⟨m1, e1, h1⟩ := clear_fresh junk hf (page d)
  obtain ⟨m2, e2, h2⟩ := body_step junk hfill h1
  exact ⟨m2, by simp only [estimate, e1, Res.bind, e2], by simpa using h2⟩

theorem next_step (junk : α) {s : Stock δ α} {fill : δ → Page α → Res (Page α)} {page : δ → Option (Page α)} {I J : Page α → Prop} {m : Model α} {l : List (CStr × α)} {x : List α} (h : Ready I l m) (d : δ)
    (hfill : ∀ p, I p → ∃ p', fill d p = .ok p' ∧ J p' ∧ (p'.vector.getD []).take s.names.length = x) :
    ∃ m', estimate junk s fill page m d = .ok m' ∧ Ready J (l ++ [(llName, s.ll d x)]) m' := by
  obtain ⟨m1, e1, h1⟩ := clear_ready junk h (page d)
  obtain ⟨m2, e2, h2⟩ := body_step junk hfill h1
  exact ⟨m2, by simp only [estimate, e1, Res.bind, e2], h2⟩

theorem pos_history (junk : α) {s : Stock δ α} (hs : s.Sized) (page : δ → Option (Page α)) : ∀ (ds : List δ) (d : δ) (l : List (CStr × α)) (m : Model α), Ready (Pos s (s.est d)) l m →
    ∃ m', estimates junk s (byPosition s) page m ds = .ok m' ∧ Ready (Pos s (s.est (ds.getLastD d))) (l ++ ds.map fun d => (llName, s.ll d (s.est d))) m'
  | [], d, l, m, h => ⟨m, rfl, by simpa using h⟩
  | d1 :: ds, d, l, m, h => by
    obtain ⟨m1, e1, h1⟩ := next_step junk (page := page) h d1 (fun p hp => fill_pos_pos hs d1 hp)
    obtain ⟨m2, e2, h2⟩ := pos_history junk hs page ds d1 _ m1 h1
    refine ⟨m2, by simp only [estimates, e1, Res.bind, e2], ?_⟩
    rw [List.getLastD_cons]
    simpa only [List.map_cons, List.append_assoc, List.singleton_append] using h2

theorem nam_history (junk : α) {s : Stock δ α} (hs : s.Sized) (hp : s.names ≠ []) (page : δ → Option (Page α)) (d0 : δ) : ∀ (ds ds0 : List δ) (l : List (CStr × α)) (m : Model α), Ready (Nam s (d0 :: ds0)) l m →
    ∃ m', estimates junk s (byName junk s) page m ds = .ok m' ∧ Ready (Nam s (d0 :: ds0 ++ ds)) (l ++ ds.map fun d => (llName, s.ll d (s.est d0))) m'
  | [], ds0, l, m, h => ⟨m, rfl, by simpa using h⟩
  | d1 :: ds, ds0, l, m, h => by
    obtain ⟨m1, e1, h1⟩ := next_step junk (page := page) h d1 (fun p hq => fill_nam_nam junk hs hp d0 d1 hq)
    obtain ⟨m2, e2, h2⟩ := nam_history junk hs hp page d0 ds (ds0 ++ [d1]) _ m1 h1
    refine ⟨m2, by simp only [estimates, e1, Res.bind, e2], ?_⟩
    simpa using h2

theorem reported_head {i : Page α} {x : α} {l : List (CStr × α)} (h : Access.Aligned i ((llName, x) :: l)) : Access.get [i] { rowname := some llName } = .ok (.val x) := by
  obtain ⟨n, hn, hg, hr, hv, hm⟩ := h
  rcases hv with ⟨h0, -⟩ | ⟨-, hv⟩
  · simp at h0
  · exact get_first hn hg hv hm llName 0 x (by rw [hr]; simp) (by simp) (by intro j a hj; omega)

theorem lookup {s : Stock δ α} (hd : s.Distinct) {p : Page α} {n : Names} {rest : List CStr} {v x : List α} {w : List α} (hn : p.names = some n) (hg : n.Good) (hr : n.row = s.names ++ rest) (hv : p.vector = some v) (hvx : v = x ++ w) (hx : x.length = s.names.length) (hm : p.matrix = none)
    (i : Nat) (name : CStr) (y : α) (h1 : s.names[i]? = some name) (h2 : x[i]? = some y) : Access.get [p] { rowname := some name } = .ok (.val y) := by
  have hi : i < s.names.length := by
    by_contra h; rw [List.getElem?_eq_none (by omega)] at h1; simp at h1
  refine get_first hn hg hv hm name i y (by rw [hr, List.getElem?_append_left hi, h1]) (by rw [hvx, List.getElem?_append_left (by omega), h2]) ?_
  intro j a hj ha hsame
  rw [hr, List.getElem?_append_left (by omega)] at ha
  have := hd i j name a h1 ha hsame
  omega

/-! ## The claims -/

/-- **C201 (first estimate).** Estimating a model as shipped sets the parameters to the estimates, each found under its name, and reports the log likelihood of the data at them, whichever way the method fills the parameters. -/
theorem C201_first (junk : α) (s : Stock δ α) (hs : s.Sized) (hd : s.Distinct) (page : δ → Option (Page α)) (m : Model α) (hf : Fresh s m) (d : δ) (fill : δ → Page α → Res (Page α)) (hfill : fill = byPosition s ∨ fill = byName junk s) :
    ∃ m', estimates junk s fill page m [d] = .ok m' ∧ (∃ p, m'.parameters = some p ∧ p.vector = some (s.est d)) ∧ (∀ (i : Nat) name x, s.names[i]? = some name → (s.est d)[i]? = some x → parameter m' name = .ok (.val x)) ∧
      reported m' = .ok (.val (s.ll d (s.est d))) := by
  rcases hfill with rfl | rfl
  · obtain ⟨m1, e1, p, i, hp, hi, ⟨hx, hv, hm, n, rest, hn, hg, hr⟩, hl⟩ := first_step junk (page := page) hf d (fun p hp => fill_pos_blank hs d hp)
    refine ⟨m1, by simp [estimates, e1, Res.bind], ⟨p, hp, hv⟩, fun i name x h1 h2 => ?_, ?_⟩
    · rw [parameter, hp]; exact lookup hd hn hg hr hv (w := []) (by simp) hx hm i name x h1 h2
    · rw [reported, hi]; exact reported_head hl
  · obtain ⟨m1, e1, p, i, hp, hi, hN, hl⟩ := first_step junk (page := page) hf d (fun p hp => fill_nam_blank junk hs hf.pos d hp)
    obtain ⟨-, hv, hm, n, rest, hn, hg, hr⟩ := nam_head hs hf.pos hN
    refine ⟨m1, by simp [estimates, e1, Res.bind], ⟨p, hp, by simpa using hv⟩, fun i name x h1 h2 => ?_, ?_⟩
    · rw [parameter, hp]; exact lookup hd hn hg hr hv (x := s.est d) (w := []) (by simp) (hs d) hm i name x h1 h2
    · rw [reported, hi]; exact reported_head hl

/-- **C201 (again, by position).** However often a model has been estimated, on whatever data: the parameters of the models that set them by position are the estimates for the last data set, each found under its name. -/
theorem C201_again (junk : α) (s : Stock δ α) (hs : s.Sized) (hd : s.Distinct) (page : δ → Option (Page α)) (m : Model α) (hf : Fresh s m) (ds : List δ) (d : δ) :
    ∃ m', estimates junk s (byPosition s) page m (ds ++ [d]) = .ok m' ∧ (∃ p, m'.parameters = some p ∧ p.vector = some (s.est d)) ∧
      ∀ (i : Nat) name x, s.names[i]? = some name → (s.est d)[i]? = some x → parameter m' name = .ok (.val x) := by
  have key : ∃ m', estimates junk s (byPosition s) page m (ds ++ [d]) = .ok m' ∧ ∃ l, Ready (Pos s (s.est d)) l m' := by
    cases ds with
    | nil =>
      obtain ⟨m1, e1, h1⟩ := first_step junk (page := page) hf d (fun p hp => fill_pos_blank hs d hp)
      exact ⟨m1, by simp [estimates, e1, Res.bind], _, h1⟩
    | cons d0 ds =>
      obtain ⟨m1, e1, h1⟩ := first_step junk (page := page) hf d0 (fun p hp => fill_pos_blank hs d0 hp)
      obtain ⟨m2, e2, h2⟩ := pos_history junk hs page (ds ++ [d]) d0 _ m1 h1
      have hlast : (ds ++ [d]).getLastD d0 = d := by simp
      rw [hlast] at h2
      exact ⟨m2, by simp only [List.cons_append, estimates, e1, Res.bind, e2], _, h2⟩
  obtain ⟨m', e, l, p, i, hp, hi, ⟨hx, hv, hm, n, rest, hn, hg, hr⟩, hl⟩ := key
  refine ⟨m', e, ⟨p, hp, hv⟩, fun i name x h1 h2 => ?_⟩
  rw [parameter, hp]; exact lookup hd hn hg hr hv (w := []) (by simp) hx hm i name x h1 h2

/-- **C201 (report, refuted in general).** The log likelihood found by name in the info page stays that of the first estimate, however often and on whatever data the model is estimated again. -/
theorem C201_report_stale (junk : α) (s : Stock δ α) (hs : s.Sized) (page : δ → Option (Page α)) (m : Model α) (hf : Fresh s m) (d : δ) (ds : List δ) (fill : δ → Page α → Res (Page α)) (hfill : fill = byPosition s ∨ fill = byName junk s) :
    ∃ m', estimates junk s fill page m (d :: ds) = .ok m' ∧ reported m' = .ok (.val (s.ll d (s.est d))) := by
  rcases hfill with rfl | rfl
  · obtain ⟨m1, e1, h1⟩ := first_step junk (page := page) hf d (fun p hp => fill_pos_blank hs d hp)
    obtain ⟨m2, e2, p, i, hp, hi, -, hl⟩ := pos_history junk hs page ds d _ m1 h1
    exact ⟨m2, by simp only [estimates, e1, Res.bind, e2], by rw [reported, hi]; exact reported_head hl⟩
  · obtain ⟨m1, e1, h1⟩ := first_step junk (page := page) hf d (fun p hp => fill_nam_blank junk hs hf.pos d hp)
    obtain ⟨m2, e2, p, i, hp, hi, -, hl⟩ := nam_history junk hs hf.pos page d ds [] _ m1 h1
    exact ⟨m2, by simp only [estimates, e1, Res.bind, e2], by rw [reported, hi]; exact reported_head hl⟩

/-- **C201 (t, refuted in general).** A t distribution estimated again keeps its first parameters, which its likelihood, draws and distribution function read, also under their names; those of the later data sets are appended. -/
theorem C201_t_stale (junk : α) (s : Stock δ α) (hs : s.Sized) (hd : s.Distinct) (page : δ → Option (Page α)) (m : Model α) (hf : Fresh s m) (d : δ) (ds : List δ) :
    ∃ m', estimates junk s (byName junk s) page m (d :: ds) = .ok m' ∧ (∃ p, m'.parameters = some p ∧ p.vector = some (s.est d ++ ds.flatMap s.est)) ∧
      ∀ (i : Nat) name x, s.names[i]? = some name → (s.est d)[i]? = some x → parameter m' name = .ok (.val x) := by
  obtain ⟨m1, e1, h1⟩ := first_step junk (page := page) hf d (fun p hp => fill_nam_blank junk hs hf.pos d hp)
  obtain ⟨m2, e2, p, i, hp, hi, hN, hl⟩ := nam_history junk hs hf.pos page d ds [] _ m1 h1
  obtain ⟨-, hv, hm, n, rest, hn, hg, hr⟩ := nam_head hs hf.pos hN
  refine ⟨m2, by simp only [estimates, e1, Res.bind, e2], ⟨p, hp, by simpa using hv⟩, fun i name x h1 h2 => ?_⟩
  rw [parameter, hp]; exact lookup hd hn hg hr hv (x := s.est d) (w := ds.flatMap s.est) (by simp) (hs d) hm i name x h1 h2

/-! ## Instances -/

/-- `apop_exponential`: `exponential_estimate`, model/apop_exponential.c:51-59. -/
noncomputable def expoStock : Stock Dist.D ℝ := ⟨[str "μ"], fun d => [Dist.expoEst d], fun d x => Dist.expoLl (x.headD 0) d⟩

/-- `apop_t_distribution`: `apop_t_estimate`, model/apop_t.c:8-23; `none` is NaN. -/
noncomputable def tStock : Stock Dist.D (Option ℝ) :=
  ⟨[str "μ", str "σ", str "df"], fun d => [some (Dist.tEst d).1, (Dist.tEst d).2.1, some (Dist.tEst d).2.2],
    fun d x => match x with
      | [some mu, some sigma, some df] => some (Dist.tLl (Dist.gslTPdf df) mu sigma d)
      | _ => none⟩

theorem expo_sized : expoStock.Sized := fun _ => rfl

theorem t_sized : tStock.Sized := fun _ => rfl

theorem names_distinct : expoStock.Distinct ∧ tStock.Distinct := by
  have key : ∀ l : List CStr, (∀ i < l.length, ∀ j < l.length, caseEq (l.getD i []) (l.getD j []) = true → i = j) → ∀ (i j : Nat) (a b : CStr), l[i]? = some a → l[j]? = some b → Names.SameUpToCase a b → i = j := by
    intro l h i j a b ha hb hs
    obtain ⟨hi, rfl⟩ := List.getElem?_eq_some_iff.1 ha
    obtain ⟨hj, rfl⟩ := List.getElem?_eq_some_iff.1 hb
    apply h i hi j hj
    simp only [List.getD_eq_getElem?_getD, List.getElem?_eq_getElem hi, List.getElem?_eq_getElem hj, Option.getD_some]
    exact (Names.sameUpToCase_iff _ _).1 hs
  exact ⟨key [str "μ"] (by decide +kernel), key [str "μ", str "σ", str "df"] (by decide +kernel)⟩

/-- The models as shipped, model/apop_exponential.c:83-86 and model/apop_t.c:119-121. -/
def expoModel : Model ℝ := { vsize := 1, dsize := 1 }

/-- See `expoModel`. -/
def tModel : Model (Option ℝ) := { vsize := 3, dsize := 1 }

theorem fresh_models : Fresh expoStock expoModel ∧ Fresh tStock tModel :=
  ⟨⟨rfl, by decide, by simp [expoStock], rfl, rfl, rfl, rfl⟩, ⟨rfl, by decide, by simp [tStock], rfl, rfl, rfl, rfl⟩⟩

theorem expo_at (x : ℝ) : Dist.expoEst ⟨some [x], none⟩ = x ∧ Dist.expoLl x ⟨some [x], none⟩ = -x / x - Real.log x := by
  constructor
  · simp [Dist.expoEst, Dist.D.vsize, Dist.vmean, Dist.D.tsize, Dist.D.msize1, Stats.gslMean]
  · simp [Dist.expoLl, Dist.D.total, Stats.vectorSum, Dist.D.tsize, Dist.D.vsize, Dist.D.msize1]

/-- **C201 (report, a case).** An exponential estimated from the number 1 and then, the result, from the number 2: the mean is 2, the log likelihood of the data at it is -1 - log 2, and the info page says -1. -/
theorem C201_report_refuted (page : Dist.D → Option (Page ℝ)) : ∃ m', estimates 0 expoStock (byPosition expoStock) page expoModel [⟨some [1], none⟩, ⟨some [2], none⟩] = .ok m' ∧
    parameter m' (str "μ") = .ok (.val 2) ∧ expoStock.ll ⟨some [2], none⟩ [2] = -1 - Real.log 2 ∧ reported m' = .ok (.val (-1)) ∧ -1 - Real.log 2 ≠ -1 := by
  obtain ⟨m1, e1, -, h1⟩ := C201_again 0 expoStock expo_sized names_distinct.1 page expoModel fresh_models.1 [⟨some [1], none⟩] ⟨some [2], none⟩
  obtain ⟨m2, e2, h2⟩ := C201_report_stale 0 expoStock expo_sized page expoModel fresh_models.1 ⟨some [1], none⟩ [⟨some [2], none⟩] _ (Or.inl rfl)
  simp only [List.singleton_append] at e1
  rw [e1] at e2
  cases e2
  refine ⟨m1, e1, h1 0 _ _ rfl (by simp [expoStock, (expo_at 2).1]), ?_, ?_, ?_⟩
  · have := (expo_at 2).2
    simp only [expoStock, List.headD_cons]
    rw [this]; norm_num
  · rw [h2]
    have := (expo_at 1).2
    simp only [expoStock, (expo_at 1).1, List.headD_cons]
    rw [this]; norm_num
  · have := Real.log_pos (show (1 : ℝ) < 2 by norm_num)
    intro h; linarith

/-- **C201 (t, once).** A first estimation of the shipped t distribution: the parameters by name are the location, the scale and the degrees of freedom computed from that data set. -/
theorem C201_t_first (page : Dist.D → Option (Page (Option ℝ))) (d : Dist.D) :
    ∃ m', estimates none tStock (byName none tStock) page tModel [d] = .ok m' ∧ parameter m' (str "μ") = .ok (.val (some (Dist.tEst d).1)) ∧
      parameter m' (str "σ") = .ok (.val (Dist.tEst d).2.1) ∧ parameter m' (str "df") = .ok (.val (some (Dist.tEst d).2.2)) := by
  obtain ⟨m1, e1, -, h1⟩ := C201_t_stale none tStock t_sized names_distinct.2 page tModel fresh_models.2 d []
  exact ⟨m1, e1, h1 0 _ _ rfl rfl, h1 1 _ _ rfl rfl, h1 2 _ _ rfl rfl⟩

/-- **C201 (t, a case).** A t distribution estimated from 0, 2, 4, 6 and then, the result, from 10, 12, 14, 16: the location stays 3; estimated from the second alone it is 13. -/
theorem C201_t_refuted (page : Dist.D → Option (Page (Option ℝ))) :
    (∃ m', estimates none tStock (byName none tStock) page tModel [⟨some [0, 2, 4, 6], none⟩, ⟨some [10, 12, 14, 16], none⟩] = .ok m' ∧ parameter m' (str "μ") = .ok (.val (some 3))) ∧
    ∃ m', estimates none tStock (byName none tStock) page tModel [⟨some [10, 12, 14, 16], none⟩] = .ok m' ∧ parameter m' (str "μ") = .ok (.val (some 13)) := by
  have mu1 : (Dist.tEst ⟨some [0, 2, 4, 6], none⟩).1 = 3 := by
    norm_num [Dist.tEst, Dist.vmean, Dist.D.vsize, Dist.D.msize1, Dist.D.msize2, Dist.D.tsize, Stats.gslMean]
  have mu2 : (Dist.tEst ⟨some [10, 12, 14, 16], none⟩).1 = 13 := by
    norm_num [Dist.tEst, Dist.vmean, Dist.D.vsize, Dist.D.msize1, Dist.D.msize2, Dist.D.tsize, Stats.gslMean]
  obtain ⟨m1, e1, -, h1⟩ := C201_t_stale none tStock t_sized names_distinct.2 page tModel fresh_models.2 ⟨some [0, 2, 4, 6], none⟩ [⟨some [10, 12, 14, 16], none⟩]
  obtain ⟨m2, e2, -, h2⟩ := C201_t_stale none tStock t_sized names_distinct.2 page tModel fresh_models.2 ⟨some [10, 12, 14, 16], none⟩ []
  exact ⟨⟨m1, e1, h1 0 _ _ rfl (by simp [tStock, mu1])⟩, ⟨m2, e2, h2 0 _ _ rfl (by simp [tStock, mu2])⟩⟩

end Apop.Mod
