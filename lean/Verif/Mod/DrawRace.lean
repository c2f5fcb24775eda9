import Mathlib.Algebra.BigOperators.Group.Finset.Basic
import Mathlib.Algebra.Order.BigOperators.Group.Finset
import Mathlib.Tactic.Linarith

/-! # C202: threads drawing at once from a model without a draw method

`apop_draw` (apop_model.m4.c:413-436) on one model, of dimension other than one, without a draw method and without an `apop_mcmc` group, called by any number of threads, under any schedule. The method pointer is read outside of the critical section. Steps are the reads and writes of the method pointer and of the settings; memory is sequentially consistent (the reads outside of the section are data races in C). -/

namespace Apop.DrawRace

/-- What a Markov chain walks over: the model's data (the chain that `apop_draw` sets up, with data and parameters reversed), or its parameters. -/
inductive Chain where
  | overData
  | overParameters
  deriving DecidableEq

/-- The shared model: whether `m->draw` is set, the chain of the first `apop_mcmc` group (the one that is found), who is in the critical section; and how many chains have been set up inside it. -/
structure St where
  draw : Bool
  group : Option Chain
  lock : Option ℕ
  runs : ℕ
  deriving DecidableEq

/-- Where a thread is: at the top of `apop_draw`; before the section; at the `if` in it; in the chain's estimation; before `m->draw = apop_model_metropolis_draw`; before `apop_settings_copy_group`; at the end of the section; at the top of `apop_model_metropolis_draw`; or past it, having drawn from a chain. -/
inductive Pc where
  | top
  | wait
  | test
  | est
  | setDraw
  | copy
  | leave
  | metro
  | done (c : Chain)
  deriving DecidableEq

/-- The read of the settings group, `apop_model_metropolis_draw`, apop_mcmc.m4.c:168-172: without a group `apop_model_metropolis` is run on the model itself and its parameters, and adds a group to it (apop_mcmc.m4.c:290-292); here that run is one step. -/
def metroStep (s : St) : St × Pc :=
  match s.group with
  | some c => (s, .done c)
  | none => ({ s with group := some .overParameters }, .done .overParameters)

/-- One step of thread `t`; `none` if it has to wait or has ended. apop_model.m4.c:415-435. -/
def step (t : ℕ) (s : St) : Pc → Option (St × Pc)
  | .top => some (s, if s.draw then .metro else .wait)
  | .wait => if s.lock = none then some ({ s with lock := some t }, .test) else none
  | .test => some (s, if s.group = none then .est else .leave)
  | .est => some ({ s with runs := s.runs + 1 }, .setDraw)
  | .setDraw => some ({ s with draw := true }, .copy)
  | .copy => some ({ s with group := s.group.or (some .overData) }, .leave)
  | .leave => some ({ s with lock := none }, .top)
  | .metro => some (metroStep s)
  | .done _ => none

/-- The threads together. -/
structure Cfg where
  st : St
  pc : ℕ → Pc

/-- Thread `t` makes its step. -/
def Cfg.Next (t : ℕ) (a b : Cfg) : Prop := ∃ r, step t a.st (a.pc t) = some r ∧ b.st = r.1 ∧ b.pc = fun u => if u = t then r.2 else a.pc u

/-- Runs of `n` threads: `Run n k a b` says that `k` steps lead from `a` to `b`. -/
inductive Run (n : ℕ) : ℕ → Cfg → Cfg → Prop
  | nil (a) : Run n 0 a a
  | cons (k a b c t) (ht : t < n) (h : Run n k a b) (hs : Cfg.Next t b c) : Run n (k + 1) a c

/-- Runs in which no thread reads the settings after the method has been set and before there is a group. -/
inductive Quiet (n : ℕ) : ℕ → Cfg → Cfg → Prop
  | nil (a) : Quiet n 0 a a
  | cons (k a b c t) (ht : t < n) (h : Quiet n k a b) (hq : b.pc t = .metro → b.st.group ≠ none) (hs : Cfg.Next t b c) : Quiet n (k + 1) a c

/-- Nothing drawn yet. -/
def start : Cfg := ⟨⟨false, none, none, 0⟩, fun _ => .top⟩

/-- A draw has been made before. -/
def used (runs : ℕ) : Cfg := ⟨⟨true, some .overData, none, runs⟩, fun _ => .top⟩

/-! ## Invariants -/

/-- Inside the section. -/
def Pc.Inside : Pc → Prop
  | .test | .est | .setDraw | .copy | .leave => True
  | _ => False

/-- What holds in all reachable states. -/
structure Inv (n : ℕ) (a : Cfg) : Prop where
  lock : ∀ t, (a.pc t).Inside ↔ a.st.lock = some t
  who : ∀ t, a.st.lock = some t → t < n
  group : a.st.group ≠ none → a.st.draw = true
  window : a.st.draw = true → a.st.group = none → ∃ t, a.pc t = .copy
  est : ∀ t, (a.pc t = .est ∨ a.pc t = .setDraw) → a.st.draw = false
  copy : ∀ t, a.pc t = .copy → a.st.draw = true
  leave : ∀ t, a.pc t = .leave → a.st.draw = true
  metro : ∀ t, a.pc t = .metro → a.st.draw = true
  done : ∀ t c, a.pc t = .done c → a.st.group = some c
  runsDraw : a.st.draw = true → a.st.runs = 1
  runsSet : ∀ t, a.pc t = .setDraw → a.st.runs = 1
  runsNone : a.st.draw = false → (∀ t, a.pc t ≠ .setDraw) → a.st.runs = 0

theorem inv_start (n : ℕ) : Inv n start := by
  constructor <;> simp [start, Pc.Inside]

theorem inv_next {n t : ℕ} {a b : Cfg} (ht : t < n) (h : Inv n a) (hs : Cfg.Next t a b) : Inv n b := by
  obtain ⟨⟨st, r⟩, e, e1, e2⟩ := hs
  obtain ⟨bs, bp⟩ := b
  simp only at e1 e2
  subst e1 e2
  obtain ⟨i1, i2, i3, i4, i5, i6, i7, i8, i9, j1, j2, j3⟩ := h
  cases hp : a.pc t <;> rw [hp] at e <;> simp only [step, metroStep] at e
  · constructor <;> grind [Pc.Inside]
  · constructor <;> grind [Pc.Inside]
  · constructor <;> grind [Pc.Inside]
  · constructor <;> grind [Pc.Inside]
  · constructor <;> grind [Pc.Inside]
  · constructor <;> grind [Pc.Inside]
  · constructor <;> grind [Pc.Inside]
  · constructor <;> grind [Pc.Inside]
  · simp at e

theorem inv_run {n k : ℕ} {a b : Cfg} (ha : Inv n a) (h : Run n k a b) : Inv n b := by
  induction h with
  | nil => exact ha
  | cons k a b c t ht _ hs ih => exact inv_next ht (ih ha) hs

theorem Quiet.run {n k : ℕ} {a b : Cfg} (h : Quiet n k a b) : Run n k a b := by
  induction h with
  | nil => exact .nil _
  | cons k a b c t ht _ _ hs ih => exact .cons _ _ _ _ t ht ih hs

/-- No chain but the right one. -/
structure Right (a : Cfg) : Prop where
  group : a.st.group ≠ some .overParameters
  done : ∀ t, a.pc t ≠ .done .overParameters

theorem right_next {t : ℕ} {a b : Cfg} (h : Right a) (hq : a.pc t = .metro → a.st.group ≠ none) (hs : Cfg.Next t a b) : Right b := by
  obtain ⟨⟨st, r⟩, e, e1, e2⟩ := hs
  obtain ⟨bs, bp⟩ := b
  simp only at e1 e2
  subst e1 e2
  obtain ⟨i1, i2⟩ := h
  cases hp : a.pc t <;> rw [hp] at e <;> simp only [step, metroStep] at e
  · constructor <;> grind
  · constructor <;> grind
  · constructor <;> grind
  · constructor <;> grind
  · constructor <;> grind
  · have : ∀ g : Option Chain, g ≠ some .overParameters → g.or (some .overData) ≠ some .overParameters := by
      intro g hg; cases g <;> simp_all
    constructor <;> grind
  · constructor <;> grind
  · have h1 := hq hp
    have h2 : a.st.group = some .overData := by
      cases hg : a.st.group with
      | none => exact absurd hg h1
      | some c => cases c with
        | overData => rfl
        | overParameters => exact absurd hg i1
    constructor <;> grind
  · simp at e

/-! ## Termination -/

/-- The steps a thread may still make. -/
def rank (draw : Bool) : Pc → ℕ
  | .top => if draw then 2 else 9
  | .wait => 8
  | .test => 7
  | .est => 6
  | .setDraw => 5
  | .copy => 4
  | .leave => 3
  | .metro => 1
  | .done _ => 0

/-- The steps all may still make. -/
def total (n : ℕ) (a : Cfg) : ℕ := ∑ t ∈ Finset.range n, rank a.st.draw (a.pc t)

theorem rank_mono {d d' : Bool} (h : d = true → d' = true) (p : Pc) : rank d' p ≤ rank d p := by
  cases p <;> simp [rank]
  cases d <;> cases d' <;> simp_all

theorem step_rank {n t : ℕ} {a b : Cfg} (h : Inv n a) (hs : Cfg.Next t a b) : rank b.st.draw (b.pc t) < rank a.st.draw (a.pc t) ∧ (a.st.draw = true → b.st.draw = true) ∧ ∀ u, u ≠ t → b.pc u = a.pc u := by
  obtain ⟨⟨st, r⟩, e, e1, e2⟩ := hs
  obtain ⟨bs, bp⟩ := b
  simp only at e1 e2
  subst e1 e2
  have i1 := h.leave t
  cases hp : a.pc t <;> rw [hp] at e <;> simp only [step, metroStep] at e <;> simp only [if_true]
  · grind [rank]
  · grind [rank]
  · grind [rank]
  · grind [rank]
  · grind [rank]
  · grind [rank]
  · grind [rank]
  · grind [rank]
  · simp at e

theorem total_next {n t : ℕ} {a b : Cfg} (ht : t < n) (h : Inv n a) (hs : Cfg.Next t a b) : total n b < total n a := by
  obtain ⟨h1, h2, h3⟩ := step_rank h hs
  refine Finset.sum_lt_sum (fun u _ => ?_) ⟨t, Finset.mem_range.2 ht, h1⟩
  by_cases hu : u = t
  · subst hu; exact h1.le
  · rw [h3 u hu]; exact rank_mono h2 _

theorem total_run {n k : ℕ} {a b : Cfg} (ha : Inv n a) (h : Run n k a b) : k + total n b ≤ total n a := by
  induction h with
  | nil => simp
  | cons k a b c t ht hr hs ih =>
    have := total_next ht (inv_run ha hr) hs
    have := ih ha
    omega

/-! ## The claims -/

/-- **C202 (one chain set up).** Under every schedule of any number of threads: at most one chain is set up in the section, and once a thread has drawn, exactly one; at most one thread is inside the section; threads that have drawn have drawn from the same chain. -/
theorem C202_one_setup (n k : ℕ) (b : Cfg) (h : Run n k start b) :
    b.st.runs ≤ 1 ∧ (∀ t c, b.pc t = .done c → b.st.runs = 1) ∧ (∀ t u, (b.pc t).Inside → (b.pc u).Inside → t = u) ∧ ∀ t u c d, b.pc t = .done c → b.pc u = .done d → c = d := by
  have i := inv_run (inv_start n) h
  refine ⟨?_, ?_, ?_, ?_⟩
  · by_cases hd : b.st.draw = true
    · rw [i.runsDraw hd]
    · by_cases hs : ∃ t, b.pc t = .setDraw
      · obtain ⟨t, ht⟩ := hs; rw [i.runsSet t ht]
      · rw [i.runsNone (by simpa using hd) (fun t ht => hs ⟨t, ht⟩)]; omega
  · intro t c hc
    exact i.runsDraw (i.group (by rw [i.done t c hc]; simp))
  · intro t u ht hu
    have := (i.lock t).1 ht
    rw [(i.lock u).1 hu] at this
    simpa using this.symm
  · intro t u c d hc hd
    have := i.done t c hc
    rw [i.done u d hd] at this
    simpa using this.symm

/-- **C202 (ending).** Every run of `n` threads makes at most 9n steps, and as long as not all have drawn one of them can make a step: all draw. -/
theorem C202_ends (n k : ℕ) (b : Cfg) (h : Run n k start b) : k ≤ 9 * n ∧ ((∃ t < n, ∀ c, b.pc t ≠ .done c) → ∃ t < n, ∃ c, Cfg.Next t b c) := by
  have i := inv_run (inv_start n) h
  refine ⟨?_, ?_⟩
  · have h1 := total_run (inv_start n) h
    have h2 : total n start = 9 * n := by simp [total, start, rank, mul_comm]
    omega
  · rintro ⟨t, ht, hd⟩
    cases hl : b.st.lock with
    | some u =>
      have hin := (i.lock u).2 hl
      refine ⟨u, i.who u hl, ?_⟩
      cases hp : b.pc u <;> rw [hp] at hin <;> simp only [Pc.Inside] at hin
      all_goals exact ⟨⟨_, _⟩, _, by rw [hp]; rfl, rfl, rfl⟩
    | none =>
      refine ⟨t, ht, ?_⟩
      cases hp : b.pc t with
      | done c => exact absurd hp (hd c)
      | wait => exact ⟨⟨_, _⟩, _, by rw [hp, step, if_pos hl], rfl, rfl⟩
      | _ => exact ⟨⟨_, _⟩, _, by rw [hp]; rfl, rfl, rfl⟩

/-- **C202 (the right chain).** In every run in which no thread reads the settings between another's two writes, of the method and of the group, every draw is from the chain over the data. -/
theorem C202_right_chain (n k : ℕ) (b : Cfg) (h : Quiet n k start b) (t : ℕ) (c : Chain) (hc : b.pc t = .done c) : c = .overData := by
  have key : ∀ {k a b}, Quiet n k a b → Right a → Right b := by
    intro k a b h
    induction h with
    | nil => exact id
    | cons k a b c t _ _ hq hs ih => exact fun ha => right_next (ih ha) hq hs
  have := (key h ⟨by simp [start], by simp [start]⟩).done t
  cases c with
  | overData => rfl
  | overParameters => exact absurd hc this

/-- **C202 (the window).** The method is set and no group is there only while the thread inside the section is between the two writes. -/
theorem C202_window (n k : ℕ) (b : Cfg) (h : Run n k start b) (hd : b.st.draw = true) (hg : b.st.group = none) : ∃ t, b.st.lock = some t ∧ b.pc t = .copy := by
  have i := inv_run (inv_start n) h
  obtain ⟨t, ht⟩ := i.window hd hg
  exact ⟨t, (i.lock t).1 (by rw [ht]; trivial), ht⟩

/-- **C202 (after a first draw).** Once a draw has been made, under every schedule all draws are from the chain over the data and no other chain is set up. -/
theorem C202_after_first (n k r : ℕ) (b : Cfg) (h : Run n k (used r) b) : b.st.runs = r ∧ ∀ t c, b.pc t = .done c → c = .overData := by
  have key : ∀ {k a b}, Run n k a b → (a.st = (used r).st ∧ ∀ t, a.pc t = .top ∨ a.pc t = .metro ∨ a.pc t = .done .overData) → (b.st = (used r).st ∧ ∀ t, b.pc t = .top ∨ b.pc t = .metro ∨ b.pc t = .done .overData) := by
    intro k a b h
    induction h with
    | nil => exact id
    | cons k a b c t _ _ hs ih =>
      intro ha
      obtain ⟨h1, h2⟩ := ih ha
      obtain ⟨⟨st, q⟩, e, e1, e2⟩ := hs
      rw [h1] at e
      rcases h2 t with hp | hp | hp <;> rw [hp] at e <;> simp only [step, metroStep, used] at e
      · simp only [if_true, Option.some.injEq, Prod.mk.injEq] at e
        rw [e1, e2]
        exact ⟨e.1.symm, fun u => by by_cases hu : u = t <;> simp [hu, ← e.2, h2 u]⟩
      · simp only [Option.some.injEq, Prod.mk.injEq] at e
        rw [e1, e2]
        exact ⟨e.1.symm, fun u => by by_cases hu : u = t <;> simp [hu, ← e.2, h2 u]⟩
      · simp at e
  obtain ⟨h1, h2⟩ := key h ⟨rfl, fun t => Or.inl rfl⟩
  refine ⟨by rw [h1]; rfl, fun t c hc => ?_⟩
  rcases h2 t with hp | hp | hp <;> rw [hp] at hc <;> simp_all

/-- Follow a schedule. -/
def follow : List ℕ → Cfg → Option Cfg
  | [], a => some a
  | t :: ts, a => match step t a.st (a.pc t) with
    | none => none
    | some r => follow ts ⟨r.1, fun u => if u = t then r.2 else a.pc u⟩

theorem follow_run {n : ℕ} : ∀ (ts : List ℕ) {k : ℕ} {a0 a b : Cfg}, (∀ t ∈ ts, t < n) → Run n k a0 a → follow ts a = some b → Run n (k + ts.length) a0 b
  | [], k, a0, a, b, _, hr, h => by simp only [follow, Option.some.injEq] at h; subst h; exact hr
  | t :: ts, k, a0, a, b, ht, hr, h => by
    rw [follow] at h
    cases e : step t a.st (a.pc t) with
    | none => rw [e] at h; simp at h
    | some r =>
      rw [e] at h
      have := follow_run ts (fun u hu => ht u (List.mem_cons_of_mem _ hu)) (.cons k a0 a _ t (ht t (by simp)) hr ⟨r, e, rfl, rfl⟩) h
      rw [List.length_cons, show k + (ts.length + 1) = k + 1 + ts.length by omega]
      exact this

/-- **C202 (refuted).** Two threads: the first sets up the chain and the method; before it copies the settings the second calls the method, finds no settings, and runs a chain over the model's *parameters*, whose settings come first. Both threads then draw parameters as if they were data, and so does every later call. -/
theorem C202_race_refuted : ∃ k b, Run 2 k start b ∧ b.pc 0 = .done .overParameters ∧ b.pc 1 = .done .overParameters ∧ b.st = ⟨true, some .overParameters, none, 1⟩ := by
  have h : ∃ b, follow [0, 0, 0, 0, 0, 1, 1, 0, 0, 0, 0] start = some b ∧ b.pc 0 = .done .overParameters ∧ b.pc 1 = .done .overParameters ∧ b.st = ⟨true, some .overParameters, none, 1⟩ :=
    ⟨_, rfl, rfl, rfl, rfl⟩
  obtain ⟨b, h1, h2⟩ := h
  exact ⟨_, b, follow_run _ (by decide) (.nil _) h1, h2⟩

/-- Non-vacuity of the right chain: two threads, the second meeting the section taken. -/
example : ∃ k b, Quiet 2 k start b ∧ b.pc 0 = .done .overData := by
  have h1 : Quiet 2 0 start start := .nil _
  have h2 := Quiet.cons _ _ _ ⟨_, _⟩ 0 (by decide) h1 (by simp [start]) ⟨_, rfl, rfl, rfl⟩
  have h3 := Quiet.cons _ _ _ ⟨_, _⟩ 1 (by decide) h2 (by simp [start]) ⟨_, rfl, rfl, rfl⟩
  have h4 := Quiet.cons _ _ _ ⟨_, _⟩ 0 (by decide) h3 (by simp [start]) ⟨_, rfl, rfl, rfl⟩
  have h5 := Quiet.cons _ _ _ ⟨_, _⟩ 0 (by decide) h4 (by simp [start]) ⟨_, rfl, rfl, rfl⟩
  have h6 := Quiet.cons _ _ _ ⟨_, _⟩ 0 (by decide) h5 (by simp [start]) ⟨_, rfl, rfl, rfl⟩
  have h7 := Quiet.cons _ _ _ ⟨_, _⟩ 0 (by decide) h6 (by simp [start]) ⟨_, rfl, rfl, rfl⟩
  have h8 := Quiet.cons _ _ _ ⟨_, _⟩ 0 (by decide) h7 (by simp [start]) ⟨_, rfl, rfl, rfl⟩
  have h9 := Quiet.cons _ _ _ ⟨_, _⟩ 0 (by decide) h8 (by simp [start]) ⟨_, rfl, rfl, rfl⟩
  have h10 := Quiet.cons _ _ _ ⟨_, _⟩ 0 (by decide) h9 (by simp [start]) ⟨_, rfl, rfl, rfl⟩
  have h11 := Quiet.cons _ _ _ ⟨_, _⟩ 0 (by decide) h10 (by simp [start]) ⟨_, rfl, rfl, rfl⟩
  exact ⟨_, _, h11, rfl⟩

end Apop.DrawRace
