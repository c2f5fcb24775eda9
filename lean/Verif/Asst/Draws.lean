import Verif.Asst.Model
import Verif.Map.Props

/-! # C42: error codes; C50: `apop_model_draws` -/

namespace Apop.Asst

/-! ## The macro `apop_return_data_error` -/

/-- Preprocessor tokens: a character constant is one token, and is not looked into when a macro's parameters are replaced (C99 6.10.3.1). -/
inductive PTok where
  | id (s : String)
  | chr (c : Char)
  | punct (s : String)
  deriving DecidableEq, Repr

/-- Replace the parameter of a macro by the argument. -/
def expand (param : String) (arg : List PTok) : List PTok → List PTok
  | [] => []
  | .id s :: body => (if s = param then arg else [.id s]) ++ expand param arg body
  | t :: body => t :: expand param arg body

/-- `{apop_data *out=apop_data_alloc(); out->error='E'; return out;}`, apop.m4.h:634. -/
def errorBody : List PTok :=
  [.punct "{", .id "apop_data", .punct "*", .id "out", .punct "=", .id "apop_data_alloc", .punct "(", .punct ")", .punct ";",
   .id "out", .punct "->", .id "error", .punct "=", .chr 'E', .punct ";", .id "return", .id "out", .punct ";", .punct "}"]

/-- The character assigned to `out->error` in a piece of code. -/
def assigned : List PTok → Option Char
  | .id "error" :: .punct "=" :: .chr c :: _ => some c
  | _ :: ts => assigned ts
  | [] => none

/-- The set `apop_return_data_error(code)` returns. -/
def errorSet {α : Type} (code : List PTok) : Page α := { (Page.empty : Page α) with error := assigned (expand "E" code errorBody) }

/-- **C42 is false.** Whatever the code in the macro's argument, the set returned is marked 'E'. So none of the codes that the documentation gives for `apop_map` ('p'),
`apop_rake` ('i', 'q'), `apop_data_to_dummies` ('d'), `apop_jackknife_cov` ('n'), `apop_bootstrap_cov` ('N'), `apop_text_to_data` ('t'), ... is ever seen. -/
theorem C42_always_E {α : Type} (code : List PTok) : (errorSet code : Page α).error = some 'E' := by
  simp [errorSet, errorBody, expand, assigned]

/-- With the usual way out, a parameter used as a token of its own, the code would be the argument. -/
example : assigned (expand "E" [.chr 'n'] [.id "out", .punct "->", .id "error", .punct "=", .id "E", .punct ";"]) = some 'n' := by decide

/-! ## `apop_model_draws` -/

variable {α S : Type}

/-- A model to draw from: the size of a draw, and what `apop_draw` does with a generator in state `s`: whether it succeeds, the numbers written, the state after. -/
structure Drawer (α S : Type) where
  dsize : Int
  draw : S → Bool × List α × S

/-- What a parallel run has made up to now: the state of each thread's generator, the rows, and whether a draw failed. -/
structure DrawSt (α S : Type) where
  rng : Nat → S
  rows : List (List α)
  failed : Bool

/-- The row after a draw, apop_asst.m4.c:423-426: `dsize` elements are written, and all of the row is NaN if the draw failed. -/
def drawnRow (nan : α) (cols : Nat) (d : Bool × List α × S) (old : List α) : List α :=
  if d.1 then d.2.1 ++ old.drop d.2.1.length else List.replicate cols nan

/-- One iteration, on thread `t`, apop_asst.m4.c:421-427. A generator is used by its thread only, so that draws on different threads do not see each other, and the order in
which a parallel run makes them is all there is to a schedule. -/
def drawStep (nan : α) (cols : Nat) (draw : S → Bool × List α × S) (st : DrawSt α S) (it : Nat × Nat) : DrawSt α S :=
  { rng := fun t => if t = it.2 then (draw (st.rng it.2)).2.2 else st.rng t
    rows := st.rows.set it.1 (drawnRow nan cols (draw (st.rng it.2)) (st.rows.getD it.1 []))
    failed := st.failed || !(draw (st.rng it.2)).1 }

/-- The loop under the schedule `σ`: which row is drawn next, and on which thread. -/
def drawLoop (nan : α) (cols : Nat) (draw : S → Bool × List α × S) (σ : List (Nat × Nat)) (st : DrawSt α S) : DrawSt α S := σ.foldl (drawStep nan cols draw) st

/-- The output set with its rows drawn. -/
def drawInto (nan : α) (draw : S → Bool × List α × S) (σ : List (Nat × Nat)) (rng : Nat → S) (out : Page α) : Page α × (Nat → S) :=
  match out.matrix with
  | none => (out, rng)
  | some m =>
    let st := drawLoop nan m.cols draw σ ⟨rng, m.rows, false⟩
    ({ out with matrix := some { m with rows := st.rows }, error := if st.failed then some 'd' else out.error }, st.rng)

/-- `apop_model_draws`, apop_asst.m4.c:405-429: the set, and the generators afterwards. A NULL model is `none`. `count` and `dsize` small enough for `int`. -/
def modelDraws (junk nan : α) (model : Option (Drawer α S)) (count : Nat) (draws : Option (Page α)) (σ : List (Nat × Nat)) (rng : Nat → S) : Page α × (Nat → S) :=
  match model with
  | none => (errorSet [.id "n"], rng)
  | some m =>
    if m.dsize = 0 then (errorSet [.id "n"], rng)
    else
      match draws with
      | some d =>
        match d.matrix with
        | none => ({ d with error := some 'm' }, rng)
        | some mat => if (mat.cols : Int) < m.dsize then ({ d with error := some 'm' }, rng) else drawInto nan m.draw σ rng d
      | none =>
        if m.dsize ≤ 0 then (errorSet [.id "n"], rng)
        else drawInto nan m.draw σ rng (Page.allocWith junk count m.dsize.toNat 0)

/-! ## Proofs -/

/-- The state of a generator after `k` draws. -/
def after (draw : S → Bool × List α × S) (s : S) (k : Nat) : S := Nat.repeat (fun s => (draw s).2.2) k s

theorem after_succ (draw : S → Bool × List α × S) (s : S) (k : Nat) : after draw (draw s).2.2 k = after draw s (k + 1) := by
  induction k with
  | zero => rfl
  | succ k ih => show (draw (after draw (draw s).2.2 k)).2.2 = _; rw [ih]; rfl

/-- Each thread's generator has made as many draws as the thread has made rows. -/
theorem loop_rng (nan : α) (cols : Nat) (draw : S → Bool × List α × S) (t : Nat) : ∀ (σ : List (Nat × Nat)) (st : DrawSt α S),
    (drawLoop nan cols draw σ st).rng t = after draw (st.rng t) ((σ.map Prod.snd).count t)
  | [], st => rfl
  | it :: σ, st => by
    rw [drawLoop, List.foldl_cons, ← drawLoop, loop_rng nan cols draw t σ]
    by_cases h : t = it.2
    · subst h
      simp only [drawStep, if_true, List.map_cons, List.count_cons_self]
      exact after_succ draw _ _
    · simp only [drawStep, if_neg h, List.map_cons]
      rw [List.count_cons_of_ne (fun e => h e.symm)]

theorem loop_length (nan : α) (cols : Nat) (draw : S → Bool × List α × S) : ∀ (σ : List (Nat × Nat)) (st : DrawSt α S),
    (drawLoop nan cols draw σ st).rows.length = st.rows.length
  | [], st => rfl
  | it :: σ, st => by
    rw [drawLoop, List.foldl_cons, ← drawLoop, loop_length nan cols draw σ]
    simp [drawStep]

theorem loop_other (nan : α) (cols : Nat) (draw : S → Bool × List α × S) (i : Nat) : ∀ (σ : List (Nat × Nat)) (st : DrawSt α S), i ∉ σ.map Prod.fst →
    (drawLoop nan cols draw σ st).rows[i]? = st.rows[i]?
  | [], st, _ => rfl
  | it :: σ, st, h => by
    rw [drawLoop, List.foldl_cons, ← drawLoop, loop_other nan cols draw i σ _ (fun e => h (by simp [e]))]
    have : it.1 ≠ i := fun e => h (by simp [e])
    simp [drawStep, List.getElem?_set_ne this]

theorem loop_failed (nan : α) (cols : Nat) (draw : S → Bool × List α × S) : ∀ (σ : List (Nat × Nat)) (st : DrawSt α S),
    (drawLoop nan cols draw σ st).failed = true ↔ st.failed = true ∨
      ∃ pre i t post, σ = pre ++ (i, t) :: post ∧ (draw (after draw (st.rng t) ((pre.map Prod.snd).count t))).1 = false
  | [], st => by simp [drawLoop]
  | it :: σ, st => by
    rw [drawLoop, List.foldl_cons, ← drawLoop, loop_failed nan cols draw σ]
    have key : ∀ (t k : Nat), (drawStep nan cols draw st it).rng t = after draw (st.rng t) (if t = it.2 then 1 else 0) := by
      intro t k
      by_cases h : t = it.2
      · subst h; simp [drawStep, after, Nat.repeat]
      · simp [drawStep, h, after, Nat.repeat]
    have step : ∀ (t : Nat) (pre : List (Nat × Nat)), after draw ((drawStep nan cols draw st it).rng t) ((pre.map Prod.snd).count t) =
        after draw (st.rng t) (((it :: pre).map Prod.snd).count t) := by
      intro t pre
      have := loop_rng nan cols draw t (it :: pre) st
      rw [← this, drawLoop, List.foldl_cons, ← drawLoop, loop_rng]
    constructor
    · rintro (h | ⟨pre, i, t, post, rfl, h⟩)
      · simp only [drawStep, Bool.or_eq_true, Bool.not_eq_true'] at h
        rcases h with h | h
        · exact Or.inl h
        · exact Or.inr ⟨[], it.1, it.2, σ, by simp, by simpa [after, Nat.repeat] using h⟩
      · refine Or.inr ⟨it :: pre, i, t, post, rfl, ?_⟩
        rw [← step]; exact h
    · rintro (h | ⟨pre, i, t, post, he, h⟩)
      · exact Or.inl (by simp [drawStep, h])
      · cases pre with
        | nil =>
          simp at he
          left
          simp [drawStep]
          right
          rw [he.1]
          simpa [after, Nat.repeat] using h
        | cons x pre =>
          simp at he
          obtain ⟨rfl, rfl⟩ := he
          exact Or.inr ⟨pre, i, t, post, rfl, by rw [step]; exact h⟩

theorem nodup_split {pre post : List (Nat × Nat)} {i t : Nat} (h : ((pre ++ (i, t) :: post).map Prod.fst).Nodup) : i ∉ pre.map Prod.fst ∧ i ∉ post.map Prod.fst := by
  simp only [List.map_append, List.map_cons, List.nodup_append, List.nodup_cons] at h
  exact ⟨fun hm => h.2.2 i hm i (by simp) rfl, h.2.1.1⟩

/-- **C50, rows.** A run of `apop_model_draws` that makes each row once, on any threads and in any order. Let row `i` be made on thread `t` after `k` other rows of that thread. Then it
holds the draw number `k` of the generator of thread `t` in its first elements (any more columns of a set given are left alone), or, if that draw failed, is all NaN. -/
theorem C50_row {nan : α} {draw : S → Bool × List α × S} {σ : List (Nat × Nat)} {rng : Nat → S} {out : Page α} {m : Mat α} (hm : out.matrix = some m)
    (hσ : (σ.map Prod.fst).Nodup) {pre post : List (Nat × Nat)} {i t : Nat} (hs : σ = pre ++ (i, t) :: post) (hi : i < m.size1) :
    ∃ m', (drawInto nan draw σ rng out).1.matrix = some m' ∧ m'.cols = m.cols ∧ m'.size1 = m.size1 ∧
      m'.rows[i]? = (m.rows[i]?).map (fun old =>
        let d := draw (after draw (rng t) ((pre.map Prod.snd).count t))
        if d.1 then d.2.1 ++ old.drop d.2.1.length else List.replicate m.cols nan) := by
  refine ⟨{ m with rows := (drawLoop nan m.cols draw σ ⟨rng, m.rows, false⟩).rows }, by simp [drawInto, hm], rfl, by simp [Mat.size1, loop_length], ?_⟩
  subst hs
  obtain ⟨h1, h2⟩ := nodup_split hσ
  simp only
  rw [drawLoop, List.foldl_append, List.foldl_cons, ← drawLoop, ← drawLoop, loop_other _ _ _ _ _ _ h2]
  have hr := loop_rng nan m.cols draw t pre ⟨rng, m.rows, false⟩
  have ho := loop_other nan m.cols draw i pre ⟨rng, m.rows, false⟩ h1
  have hl := loop_length nan m.cols draw pre ⟨rng, m.rows, false⟩
  simp only at hr ho hl
  have hi' : i < m.rows.length := hi
  simp only [drawStep, drawnRow]
  rw [List.getElem?_set_self (by rw [hl]; exact hi'), List.getD_eq_getElem?_getD, ho, hr, List.getElem?_eq_getElem hi']
  rfl

/-- **C50, no reuse.** Two rows are never made from the same draw of the same generator. -/
theorem C50_distinct {pre post pre' post' : List (Nat × Nat)} {i i' t : Nat} (h : pre ++ (i, t) :: post = pre' ++ (i', t) :: post')
    (hne : i ≠ i') : (pre.map Prod.snd).count t ≠ (pre'.map Prod.snd).count t := by
  induction pre generalizing pre' with
  | nil =>
    cases pre' with
    | nil => simp at h; exact absurd h.1 hne
    | cons x pre' =>
      simp at h
      obtain ⟨rfl, _⟩ := h
      simp
  | cons y pre ih =>
    cases pre' with
    | nil =>
      simp at h
      obtain ⟨rfl, _⟩ := h
      simp
    | cons x pre' =>
      simp at h
      obtain ⟨rfl, h⟩ := h
      have := ih h
      simp only [List.map_cons, List.count_cons]
      omega

/-- **C50, errors.** The set is marked 'd' exactly if the draw for some row failed (and otherwise keeps the mark it had). -/
theorem C50_error {nan : α} {draw : S → Bool × List α × S} {σ : List (Nat × Nat)} {rng : Nat → S} {out : Page α} {m : Mat α} (hm : out.matrix = some m) :
    (drawInto nan draw σ rng out).1.error =
      if (drawLoop nan m.cols draw σ ⟨rng, m.rows, false⟩).failed then some 'd' else out.error := by
  simp [drawInto, hm]

theorem C50_error_iff {nan : α} {draw : S → Bool × List α × S} {σ : List (Nat × Nat)} {rng : Nat → S} {out : Page α} {m : Mat α} (hm : out.matrix = some m)
    (he : out.error = none) :
    (drawInto nan draw σ rng out).1.error = some 'd' ↔ ∃ pre i t post, σ = pre ++ (i, t) :: post ∧ (draw (after draw (rng t) ((pre.map Prod.snd).count t))).1 = false := by
  rw [C50_error hm]
  have := loop_failed nan m.cols draw σ ⟨rng, m.rows, false⟩
  simp only [Bool.false_eq_true, false_or] at this
  rw [← this]
  split <;> simp_all

/-- Without a set to fill: a new one, with `count` rows and as many columns as a draw has elements. -/
theorem C50_new {junk nan : α} {m : Drawer α S} {count : Nat} {σ : List (Nat × Nat)} {rng : Nat → S} (hd : 0 < m.dsize) (hd' : m.dsize < 2 ^ 31) (hc : 0 < count) :
    modelDraws junk nan (some m) count none σ rng =
      drawInto nan m.draw σ rng { matrix := some (Mat.fresh junk count m.dsize.toNat), names := some Names.alloc } := by
  have h1 : ¬ m.dsize = 0 := by omega
  have h2 : ¬ m.dsize ≤ 0 := by omega
  simp only [modelDraws, if_neg h1, if_neg h2]
  rw [Map.allocM junk hc (by omega) (by omega)]

/-- With a set to fill that is wide enough: that set. -/
theorem C50_given {junk nan : α} {m : Drawer α S} {count : Nat} {d : Page α} {mat : Mat α} {σ : List (Nat × Nat)} {rng : Nat → S} (hd : 0 < m.dsize)
    (hm : d.matrix = some mat) (hw : m.dsize ≤ mat.cols) : modelDraws junk nan (some m) count (some d) σ rng = drawInto nan m.draw σ rng d := by
  have h1 : ¬ m.dsize = 0 := by omega
  simp only [modelDraws, if_neg h1, hm]
  rw [if_neg (by omega)]

/-- **C42, C50: the codes of the errors.** Documented: 'm' for a NULL model or a model with dsize zero, 's' for a set that is too narrow. -/
theorem C42_draws_null (junk nan : α) (count : Nat) (draws : Option (Page α)) (σ : List (Nat × Nat)) (rng : Nat → S) :
    (modelDraws junk nan none count draws σ rng).1.error = some 'E' := C42_always_E _

theorem C42_draws_dsize_zero (junk nan : α) (m : Drawer α S) (h : m.dsize = 0) (count : Nat) (draws : Option (Page α)) (σ : List (Nat × Nat)) (rng : Nat → S) :
    (modelDraws junk nan (some m) count draws σ rng).1.error = some 'E' := by
  simp only [modelDraws, if_pos h]
  exact C42_always_E _

theorem C42_draws_narrow (junk nan : α) (m : Drawer α S) (h : m.dsize ≠ 0) (count : Nat) (d : Page α) (mat : Mat α) (hm : d.matrix = some mat)
    (hn : (mat.cols : Int) < m.dsize) (σ : List (Nat × Nat)) (rng : Nat → S) :
    (modelDraws junk nan (some m) count (some d) σ rng).1.error = some 'm' ∧ (modelDraws junk nan (some m) count (some d) σ rng).1.matrix = some mat := by
  simp [modelDraws, h, hm, hn]

/-- Three rows on two threads, with a generator that counts and fails at 11: thread 0 starts at 10, thread 1 at 20. -/
example : (modelDraws 0 999 (some ⟨2, fun s => (s != 11, [s, s + 100], s + 1)⟩) 3 none [(2, 0), (0, 1), (1, 0)] (fun t => 10 * t + 10)).1 =
    { matrix := some ⟨[[20, 120], [999, 999], [10, 110]], 2⟩, names := some Names.alloc, error := some 'd' } := by decide +kernel

end Apop.Asst
