import Mathlib.Tactic.SplitIfs
import Mathlib.Algebra.BigOperators.Group.List.Basic
import Mathlib.Algebra.Order.BigOperators.Group.List
import Mathlib.Tactic.Linarith

/-! # C181: critical sections, one inside another

All of the library's critical sections are named and global. OpenMP's are not reentrant: a thread that comes to a section that it is in already waits for itself. Here is which section is entered inside which, for likelihoods, draws and Markov chains of
models built from one another, and any number of threads under any schedule. -/

namespace Apop.Sect

/-- The sections: apop_model.m4.c:422; apop_mcmc.m4.c:174 and 288; model/apop_kerneld.c:93 and 117; transform/apop_mixture.c:280; model/apop_pmf.c:137 and 145; apop_vtables.c:77; and those that a user's method may have, as docs/documentation.h:2938-2950
advises. (Left out: apop_asst.m4.c:150, 368, apop_bootstrap.m4.c:22, apop_fexact.c:1905, inside which nothing but `rng_env_setup` inside `rng_get_thread` is entered, and that nowhere else the other way around.) -/
inductive Sec where
  | apopDraw
  | metroDraw
  | metropolis
  | kernel
  | mixdraw
  | pmfSetup
  | pmfSetupTwo
  | newVtable
  | user (k : ℕ)
  deriving DecidableEq

/-- What a thread does, as far as sections go. -/
inductive Prog where
  | skip
  | seq (a b : Prog)
  | crit (s : Sec) (b : Prog)

/-- The same thing so many times. -/
def Prog.times : ℕ → Prog → Prog
  | 0, _ => .skip
  | n + 1, p => .seq p (p.times n)

/-- One after another. -/
def Prog.all : List Prog → Prog
  | [] => .skip
  | p :: ps => .seq p (Prog.all ps)

/-- A model, by how its methods call others.
`plain`: closed-form methods, the likelihood perhaps with a critical section of the user's own.
`kernel k r`: a kernel density over `r` rows with kernel `k`.
`mixture ms`: a mixture.
`noDraw b`: more than one dimension, a likelihood that calls that of `b`, and no draw method.
`sim b r`: a model whose likelihood makes `r` draws from `b`.
`chain b r`: a model whose likelihood runs a Markov chain of `r` periods on `b`. -/
inductive Mdl where
  | plain (own : Option ℕ)
  | kernel (k : Mdl) (r : ℕ)
  | mixture (m : Mdl) (rest : List Mdl)
  | noDraw (b : Mdl)
  | sim (b : Mdl) (r : ℕ)
  | chain (b : Mdl) (r : ℕ)

/-- A draw from a PMF with weights: model/apop_pmf.c:137-146. -/
def pmfDraw : Prog := .seq (.crit .pmfSetup .skip) (.crit .pmfSetupTwo .skip)

/-- `apop_model_metropolis`, given what an evaluation of the likelihood does: apop_mcmc.m4.c:288-343. The preparation, and the estimation of the PMF at the end, add to the vtables (model/apop_pmf.c:290); a proposal is drawn with a closed-form
method. So many steps, including those that are thrown out. -/
def metropolis (steps : ℕ) (ll : Prog) : Prog := .crit .metropolis (.seq (.crit .newVtable .skip) (.seq (ll.times steps) (.crit .newVtable .skip)))

/-- `apop_model_metropolis_draw` where the chain has been run: apop_mcmc.m4.c:174-193, one step for each of so many blocks. -/
def metroDraw (blocks : ℕ) (ll : Prog) : Prog := .crit .metroDraw (ll.times blocks)

/-- How often things are done, which is a matter of the data: rows in the data; steps of a chain; blocks of parameters; which part of a mixture is drawn from; whether it is the first draw. Any number whatever. -/
structure Counts where
  rows : ℕ
  steps : ℕ
  blocks : ℕ
  first : Bool

mutual
/-- An evaluation of the likelihood. Kernel density: model/apop_kerneld.c:104-136 (each row against each row of the base data; the CDF at 83-100 is the same); mixture: transform/apop_mixture.c:200-276. -/
def ll (c : Counts) : Mdl → Prog
  | .plain none => .skip
  | .plain (some k) => .crit (.user k) .skip
  | .kernel k r => (Prog.crit .kernel (ll c k)).times (c.rows * r)
  | .mixture m ms => .seq (ll c m) (llAll c ms)
  | .noDraw b => ll c b
  | .sim b r => (draw c b).times r
  | .chain b r => metropolis r (ll c b)
def llAll (c : Counts) : List Mdl → Prog
  | [] => .skip
  | m :: ms => .seq (ll c m) (llAll c ms)
/-- A draw. Kernel density: model/apop_kerneld.c:138-155; mixture: transform/apop_mixture.c:278-290 (from the first part here: the parts may be listed in any order); no method: apop_model.m4.c:414-437, the chain being run on the first draw only. -/
def draw (c : Counts) : Mdl → Prog
  | .plain _ => .skip
  | .kernel k _ => .seq pmfDraw (draw c k)
  | .mixture m _ => .seq (.crit .mixdraw .skip) (.seq pmfDraw (draw c m))
  | .noDraw b => .seq (if c.first then .crit .apopDraw (metropolis c.steps (ll c b)) else .skip) (metroDraw c.blocks (ll c b))
  | .sim _ _ => .skip
  | .chain _ _ => .skip
end

/-- Entering and leaving. -/
inductive Ev where
  | enter (s : Sec)
  | exit (s : Sec)
  deriving DecidableEq

/-- A program as the sequence of what it enters and leaves. -/
def Prog.flat : Prog → List Ev
  | .skip => []
  | .seq a b => a.flat ++ b.flat
  | .crit s b => .enter s :: (b.flat ++ [.exit s])

/-- Who is in each section; what each thread has still to do. -/
structure Sys where
  own : Sec → Option ℕ
  rest : ℕ → List Ev

/-- Whether thread `t` has a step to take: it may enter a section only if nobody is in it. -/
def canStep (s : Sys) (t : ℕ) : Bool :=
  match s.rest t with
  | [] => false
  | .enter c :: _ => (s.own c).isNone
  | .exit _ :: _ => true

/-- The step. -/
def act (s : Sys) (t : ℕ) : Sys :=
  match s.rest t with
  | [] => s
  | .enter c :: p => ⟨fun x => if x = c then some t else s.own x, fun i => if i = t then p else s.rest i⟩
  | .exit c :: p => ⟨fun x => if x = c then none else s.own x, fun i => if i = t then p else s.rest i⟩

/-- The scheduler picks thread `t` of `n`: it takes its step, or waits. -/
def pick (n : ℕ) (s : Sys) (t : ℕ) : Sys := if t < n ∧ canStep s t = true then act s t else s

/-- A whole schedule. -/
def runSched (n : ℕ) (s : Sys) (σ : List ℕ) : Sys := σ.foldl (pick n) s

/-- Nobody in any section; every thread about to run its program. -/
def begin (progs : ℕ → Prog) : Sys := ⟨fun _ => none, fun t => (progs t).flat⟩

/-- What a thread may be asked to do: a likelihood, a draw, a Markov chain. -/
inductive Task where
  | ll (c : Counts) (m : Mdl)
  | draw (c : Counts) (m : Mdl)
  | chain (c : Counts) (m : Mdl)

def Task.prog : Task → Prog
  | .ll c m => Sect.ll c m
  | .draw c m => Sect.draw c m
  | .chain c m => metropolis c.steps (Sect.ll c m)

/-! ## Specification -/

mutual
/-- No kernel density in it, nor draws or chains in a likelihood. -/
def Mdl.flatKind : Mdl → Bool
  | .plain _ => true
  | .kernel _ _ => false
  | .mixture m ms => m.flatKind && flatAll ms
  | .noDraw b => b.flatKind
  | .sim _ _ => false
  | .chain _ _ => false
def flatAll : List Mdl → Bool
  | [] => true
  | m :: ms => m.flatKind && flatAll ms
end

mutual
/-- A model that the sections allow for: the kernel of a kernel density is not, and has not in it, a kernel density or a model whose likelihood draws or runs a chain. -/
def Mdl.sound : Mdl → Bool
  | .plain _ => true
  | .kernel k _ => k.flatKind
  | .mixture m ms => m.sound && soundAll ms
  | .noDraw b => b.sound
  | .sim _ _ => false
  | .chain _ _ => false
def soundAll : List Mdl → Bool
  | [] => true
  | m :: ms => m.sound && soundAll ms
end

def Task.mdl : Task → Mdl
  | .ll _ m => m
  | .draw _ m => m
  | .chain _ m => m

/-- A thread is inside a section if it has still to leave it more often than to enter it. -/
def inside (s : Sys) (t : ℕ) (c : Sec) : Prop := (s.rest t).count (.enter c) < (s.rest t).count (.exit c)

/-! ## Proofs -/

/-- An order in which sections are entered one inside another. -/
def Sec.rank : Sec → ℕ
  | .apopDraw => 1
  | .metroDraw => 2
  | .metropolis => 2
  | .kernel => 3
  | _ => 4

/-- Every section entered, entered inside those of lower rank only. -/
def Prog.above (r : ℕ) : Prog → Prop
  | .skip => True
  | .seq a b => a.above r ∧ b.above r
  | .crit s b => r < s.rank ∧ b.above s.rank

theorem above_mono {r r' : ℕ} (h : r' ≤ r) : ∀ {p : Prog}, p.above r → p.above r'
  | .skip, _ => trivial
  | .seq _ _, hp => ⟨above_mono h hp.1, above_mono h hp.2⟩
  | .crit _ _, hp => ⟨lt_of_le_of_lt h hp.1, hp.2⟩

theorem above_times {r : ℕ} {p : Prog} (h : p.above r) : ∀ n, (p.times n).above r
  | 0 => trivial
  | n + 1 => ⟨h, above_times h n⟩

mutual
theorem ll_flat (c : Counts) : ∀ m : Mdl, m.flatKind = true → (ll c m).above 3
  | .plain none, _ => trivial
  | .plain (some k), _ => ⟨by simp [Sec.rank], trivial⟩
  | .kernel _ _, h => by simp [Mdl.flatKind] at h
  | .mixture m ms, h => by
    simp only [Mdl.flatKind, Bool.and_eq_true] at h
    unfold ll
    exact ⟨ll_flat c m h.1, llAll_flat c ms h.2⟩
  | .noDraw b, h => by
    unfold ll
    exact ll_flat c b (by simpa [Mdl.flatKind] using h)
  | .sim _ _, h => by simp [Mdl.flatKind] at h
  | .chain _ _, h => by simp [Mdl.flatKind] at h
theorem llAll_flat (c : Counts) : ∀ ms : List Mdl, flatAll ms = true → (llAll c ms).above 3
  | [], _ => by unfold llAll; trivial
  | m :: ms, h => by
    simp only [flatAll, Bool.and_eq_true] at h
    unfold llAll
    exact ⟨ll_flat c m h.1, llAll_flat c ms h.2⟩
end

mutual
theorem ll_sound (c : Counts) : ∀ m : Mdl, m.sound = true → (ll c m).above 2
  | .plain none, _ => by unfold ll; trivial
  | .plain (some k), _ => by unfold ll; exact ⟨by simp [Sec.rank], trivial⟩
  | .kernel k r, h => by
    unfold ll
    exact above_times (p := .crit .kernel (ll c k)) ⟨by simp [Sec.rank], ll_flat c k (by simpa [Mdl.sound] using h)⟩ _
  | .mixture m ms, h => by
    simp only [Mdl.sound, Bool.and_eq_true] at h
    unfold ll
    exact ⟨ll_sound c m h.1, llAll_sound c ms h.2⟩
  | .noDraw b, h => by
    unfold ll
    exact ll_sound c b (by simpa [Mdl.sound] using h)
  | .sim _ _, h => by simp [Mdl.sound] at h
  | .chain _ _, h => by simp [Mdl.sound] at h
theorem llAll_sound (c : Counts) : ∀ ms : List Mdl, soundAll ms = true → (llAll c ms).above 2
  | [], _ => by unfold llAll; trivial
  | m :: ms, h => by
    simp only [soundAll, Bool.and_eq_true] at h
    unfold llAll
    exact ⟨ll_sound c m h.1, llAll_sound c ms h.2⟩
end

theorem metropolis_above {p : Prog} (h : p.above 2) (n : ℕ) : (metropolis n p).above 1 :=
  ⟨by simp [Sec.rank], ⟨by simp [Sec.rank], trivial⟩, above_times h n, ⟨by simp [Sec.rank], trivial⟩⟩

theorem pmfDraw_above : pmfDraw.above 3 := ⟨⟨by simp [Sec.rank], trivial⟩, ⟨by simp [Sec.rank], trivial⟩⟩

theorem flat_sound : ∀ m : Mdl, m.flatKind = true → m.sound = true := by
  intro m
  refine Mdl.rec (motive_1 := fun m => m.flatKind = true → m.sound = true) (motive_2 := fun ms => flatAll ms = true → soundAll ms = true) ?_ ?_ ?_ ?_ ?_ ?_ ?_ ?_ m
  · intro _ _; rfl
  · intro k r _ h; simp [Mdl.flatKind] at h
  · intro m ms h1 h2 h
    simp only [Mdl.flatKind, Mdl.sound, Bool.and_eq_true] at h ⊢
    exact ⟨h1 h.1, h2 h.2⟩
  · intro b h1 h
    simp only [Mdl.flatKind, Mdl.sound] at h ⊢
    exact h1 h
  · intro b r _ h; simp [Mdl.flatKind] at h
  · intro b r _ h; simp [Mdl.flatKind] at h
  · intro _; rfl
  · intro m ms h1 h2 h
    simp only [flatAll, soundAll, Bool.and_eq_true] at h ⊢
    exact ⟨h1 h.1, h2 h.2⟩

theorem draw_sound (c : Counts) : ∀ m : Mdl, m.sound = true → (draw c m).above 0
  | .plain _, _ => by unfold draw; trivial
  | .kernel k r, h => by
    unfold draw
    exact ⟨above_mono (by omega) pmfDraw_above, draw_sound c k (flat_sound k (by simpa [Mdl.sound] using h))⟩
  | .mixture m ms, h => by
    simp only [Mdl.sound, Bool.and_eq_true] at h
    unfold draw
    exact ⟨⟨by simp [Sec.rank], trivial⟩, above_mono (by omega) pmfDraw_above, draw_sound c m h.1⟩
  | .noDraw b, h => by
    have hb := ll_sound c b (by simpa [Mdl.sound] using h)
    unfold draw
    refine ⟨?_, by simp [Sec.rank], above_times hb _⟩
    split_ifs
    · exact ⟨by simp [Sec.rank], metropolis_above hb _⟩
    · trivial
  | .sim _ _, h => by simp [Mdl.sound] at h
  | .chain _ _, h => by simp [Mdl.sound] at h

theorem task_sound (k : Task) (h : k.mdl.sound = true) : k.prog.above 0 := by
  cases k with
  | ll c m => exact above_mono (by omega) (ll_sound c m h)
  | draw c m => exact draw_sound c m h
  | chain c m => exact above_mono (by omega) (metropolis_above (ll_sound c m h) _)

/-- What is left of a program, with the sections it is in, the innermost first. -/
def Ordered : List Sec → List Ev → Prop
  | st, [] => st = []
  | st, .enter s :: p => (∀ x ∈ st, x.rank < s.rank) ∧ Ordered (s :: st) p
  | [], .exit _ :: _ => False
  | x :: st, .exit s :: p => s = x ∧ Ordered st p

theorem ordered_flat : ∀ (p : Prog) {r : ℕ} {st : List Sec} {q : List Ev}, p.above r → (∀ x ∈ st, x.rank ≤ r) → Ordered st q → Ordered st (p.flat ++ q)
  | .skip, _, _, _, _, _, hq => hq
  | .seq a b, _, _, _, h, hst, hq => by
    simp only [Prog.flat, List.append_assoc]
    exact ordered_flat a h.1 hst (ordered_flat b h.2 hst hq)
  | .crit s b, r, st, q, h, hst, hq => by
    simp only [Prog.flat, List.cons_append, List.append_assoc]
    refine ⟨fun x hx => lt_of_le_of_lt (hst x hx) h.1, ordered_flat b h.2 ?_ ⟨rfl, hq⟩⟩
    intro x hx
    rcases List.mem_cons.1 hx with rfl | hx
    · exact le_rfl
    · exact le_trans (hst x hx) h.1.le

/-- The invariant: each thread's stack of sections, with nobody else in them. -/
def Ok (n : ℕ) (s : Sys) : Prop :=
  ∃ st : ℕ → List Sec, (∀ t < n, Ordered (st t) (s.rest t)) ∧ (∀ c t, s.own c = some t ↔ t < n ∧ c ∈ st t) ∧ ∀ t < n, (st t).Nodup

theorem begin_ok (n : ℕ) (progs : ℕ → Prog) (h : ∀ t < n, (progs t).above 0) : Ok n (begin progs) :=
  ⟨fun _ => [], fun t ht => by
    have := ordered_flat (progs t) (st := []) (q := []) (h t ht) (by simp) rfl
    simpa [begin] using this, by simp [begin], by simp⟩

theorem pick_ok {n : ℕ} {s : Sys} (h : Ok n s) (t : ℕ) : Ok n (pick n s t) := by
  unfold pick
  split_ifs with hc
  · obtain ⟨ht, hcan⟩ := hc
    obtain ⟨st, h1, h2, h3⟩ := h
    have ho := h1 t ht
    cases hr : s.rest t with
    | nil => simp [canStep, hr] at hcan
    | cons e p =>
      rw [hr] at ho
      cases e with
      | enter c =>
        have hfree : s.own c = none := by simpa [canStep, hr, Option.isNone_iff_eq_none] using hcan
        have hnot : ∀ x < n, c ∉ st x := by
          intro x hx hm
          have := (h2 c x).2 ⟨hx, hm⟩
          rw [hfree] at this; cases this
        refine ⟨fun i => if i = t then c :: st t else st i, ?_, ?_, ?_⟩
        · intro x hx
          simp only [act, hr]
          split_ifs with e
          · exact ho.2
          · exact h1 x hx
        · intro d x
          simp only [act, hr]
          by_cases hd : d = c
          · subst hd
            simp only [if_true, Option.some.injEq]
            constructor
            · rintro rfl; simp [ht]
            · rintro ⟨hx, hm⟩
              split_ifs at hm with e
              · exact e.symm
              · exact absurd hm (hnot x hx)
          · rw [if_neg hd, h2 d x]
            split_ifs with e
            · subst e; simp [hd]
            · rfl
        · intro x hx
          simp only
          split_ifs with e
          · exact List.nodup_cons.2 ⟨hnot t ht, h3 t ht⟩
          · exact h3 x hx
      | exit c =>
        cases hst : st t with
        | nil => rw [hst] at ho; exact ho.elim
        | cons y ys =>
          rw [hst] at ho
          obtain ⟨rfl, ho⟩ := ho
          have hnd := h3 t ht
          rw [hst, List.nodup_cons] at hnd
          have hown : s.own c = some t := (h2 c t).2 ⟨ht, by simp [hst]⟩
          refine ⟨fun i => if i = t then ys else st i, ?_, ?_, ?_⟩
          · intro x hx
            simp only [act, hr]
            split_ifs with e
            · exact ho
            · exact h1 x hx
          · intro d x
            simp only [act, hr]
            by_cases hd : d = c
            · subst hd
              simp only [if_true]
              constructor
              · intro h; cases h
              · rintro ⟨hx, hm⟩
                split_ifs at hm with e
                · exact absurd hm hnd.1
                · have := (h2 d x).2 ⟨hx, hm⟩
                  rw [hown] at this; cases this; exact absurd rfl e
            · rw [if_neg hd, h2 d x]
              split_ifs with e
              · subst e; simp [hst, hd]
              · rfl
          · intro x hx
            simp only
            split_ifs with e
            · exact hnd.2
            · exact h3 x hx
  · exact h

theorem run_ok {n : ℕ} : ∀ (σ : List ℕ) {s : Sys}, Ok n s → Ok n (runSched n s σ)
  | [], _, h => h
  | t :: σ, _, h => run_ok σ (pick_ok h t)

/-- A thread that wants a section of a high rank that somebody is in: that one, or one further up, can move. -/
theorem someone_moves {n : ℕ} {s : Sys} (h : Ok n s) : ∀ (k : ℕ) (t : ℕ) (c : Sec) (p : List Ev), t < n → s.rest t = .enter c :: p → 4 ≤ c.rank + k → ∃ t' < n, canStep s t' = true := by
  obtain ⟨st, h1, h2, h3⟩ := h
  intro k
  induction k with
  | zero =>
    intro t c p ht hr hk
    cases hown : s.own c with
    | none => exact ⟨t, ht, by simp [canStep, hr, hown]⟩
    | some x =>
      obtain ⟨hx, hm⟩ := (h2 c x).1 hown
      refine ⟨x, hx, ?_⟩
      have ho := h1 x hx
      cases hrx : s.rest x with
      | nil => rw [hrx] at ho; simp only [Ordered] at ho; rw [ho] at hm; simp at hm
      | cons e q =>
        cases e with
        | exit d => simp [canStep, hrx]
        | enter d =>
          rw [hrx] at ho
          have hr := ho.1 c hm
          have : d.rank ≤ 4 := by cases d <;> simp [Sec.rank]
          omega
  | succ k ih =>
    intro t c p ht hr hk
    cases hown : s.own c with
    | none => exact ⟨t, ht, by simp [canStep, hr, hown]⟩
    | some x =>
      obtain ⟨hx, hm⟩ := (h2 c x).1 hown
      have ho := h1 x hx
      cases hrx : s.rest x with
      | nil => rw [hrx] at ho; simp only [Ordered] at ho; rw [ho] at hm; simp at hm
      | cons e q =>
        cases e with
        | exit d => exact ⟨x, hx, by simp [canStep, hrx]⟩
        | enter d =>
          rw [hrx] at ho
          have hr := ho.1 c hm
          exact ih x d q hx hrx (by omega)

theorem Ok.moves {n : ℕ} {s : Sys} (h : Ok n s) {t : ℕ} (ht : t < n) (hd : s.rest t ≠ []) : ∃ t' < n, canStep s t' = true := by
  cases hr : s.rest t with
  | nil => exact absurd hr hd
  | cons e p =>
    cases e with
    | exit c => exact ⟨t, ht, by simp [canStep, hr]⟩
    | enter c => exact someone_moves h 4 t c p ht hr (by omega)

/-- What is left to do. -/
def work (n : ℕ) (s : Sys) : ℕ := ((List.range n).map fun t => (s.rest t).length).sum

theorem sum_lt_of_one {f g : ℕ → ℕ} {n t : ℕ} (ht : t < n) (h1 : f t < g t) (h2 : ∀ x, x ≠ t → f x = g x) : ((List.range n).map f).sum < ((List.range n).map g).sum := by
  induction n with
  | zero => omega
  | succ n ih =>
    rw [List.range_succ]
    simp only [List.map_append, List.sum_append, List.map_cons, List.map_nil, List.sum_cons, List.sum_nil]
    by_cases he : t = n
    · subst he
      have : (List.range t).map f = (List.range t).map g := List.map_congr_left fun x hx => h2 x (by have := List.mem_range.1 hx; omega)
      rw [this]; omega
    · have := ih (by omega)
      rw [h2 n (by omega)]; omega

theorem pick_work {n : ℕ} {s : Sys} {t : ℕ} (h : t < n ∧ canStep s t = true) : work n (pick n s t) < work n s := by
  unfold pick
  rw [if_pos h]
  obtain ⟨ht, hc⟩ := h
  cases hr : s.rest t with
  | nil => simp [canStep, hr] at hc
  | cons e p =>
    refine sum_lt_of_one ht ?_ ?_
    · cases e <;> simp [act, hr]
    · intro x hx; cases e <;> simp [act, hr, hx]

theorem pick_work_le {n : ℕ} (s : Sys) (t : ℕ) : work n (pick n s t) ≤ work n s := by
  by_cases h : t < n ∧ canStep s t = true
  · exact (pick_work h).le
  · unfold pick; rw [if_neg h]

theorem run_work {n : ℕ} : ∀ (σ : List ℕ) (s : Sys), work n (runSched n s σ) ≤ work n s
  | [], _ => le_rfl
  | t :: σ, s => le_trans (run_work σ _) (pick_work_le s t)

theorem block_works {n t : ℕ} (ht : t < n) : ∀ (b : List ℕ) {s : Sys}, t ∈ b → canStep s t = true → work n (runSched n s b) < work n s := by
  intro b
  induction b with
  | nil => intro s hb; simp at hb
  | cons x b ih =>
    intro s hb hstep
    show work n (runSched n (pick n s x) b) < _
    by_cases hc : x < n ∧ canStep s x = true
    · exact lt_of_le_of_lt (run_work b _) (pick_work hc)
    · have hxt : x ≠ t := by rintro rfl; exact hc ⟨ht, hstep⟩
      have he : pick n s x = s := by unfold pick; rw [if_neg hc]
      rw [he]
      exact ih (by simpa [Ne.symm hxt] using hb) hstep

theorem ends_of_ok {n : ℕ} : ∀ (blocks : List (List ℕ)) {s : Sys}, Ok n s → (∀ b ∈ blocks, ∀ t < n, t ∈ b) → work n s ≤ blocks.length →
    ∀ t < n, (runSched n s blocks.flatten).rest t = [] := by
  intro blocks
  induction blocks with
  | nil =>
    intro s h _ hw t ht
    apply Classical.byContradiction
    intro hd
    obtain ⟨t', ht', hm⟩ := h.moves ht hd
    have := block_works ht' [t'] (by simp) hm
    simp at hw
    omega
  | cons b bs ih =>
    intro s h hb hw t ht
    have hrun : runSched n s (b :: bs).flatten = runSched n (runSched n s b) bs.flatten := by
      simp [runSched, List.foldl_append]
    rw [hrun]
    refine ih (run_ok b h) (fun b' hb' => hb b' (by simp [hb'])) ?_ t ht
    by_cases hall : ∀ t < n, s.rest t = []
    · have h0 : work n s = 0 := by
        unfold work
        rw [List.sum_eq_zero_iff]
        intro x hx
        obtain ⟨i, hi, rfl⟩ := List.mem_map.1 hx
        rw [hall i (List.mem_range.1 hi)]; rfl
      have := run_work (n := n) b s
      omega
    · have hall' : ∃ x, x < n ∧ s.rest x ≠ [] := by
        apply Classical.byContradiction
        intro hc
        exact hall fun t ht => Classical.byContradiction fun hne => hc ⟨t, ht, hne⟩
      obtain ⟨x, hx, hd⟩ := hall'
      obtain ⟨t', ht', hm⟩ := h.moves hx hd
      have := block_works ht' b (hb b (by simp) t' ht') hm
      simp at hw
      omega

/-- **C181 (no deadlock).** Any number of threads, each evaluating a likelihood of, drawing from or running a Markov chain on any model, the kernels of whose kernel densities are not themselves such; whatever the schedule so far, unless all have ended one of
them can go on. -/
theorem C181_no_deadlock (n : ℕ) (tasks : ℕ → Task) (hs : ∀ t < n, (tasks t).mdl.sound = true) (σ : List ℕ) (t : ℕ) (ht : t < n)
    (hleft : (runSched n (begin fun i => (tasks i).prog) σ).rest t ≠ []) : ∃ t' < n, canStep (runSched n (begin fun i => (tasks i).prog) σ) t' = true :=
  (run_ok σ (begin_ok n _ fun t ht => task_sound (tasks t) (hs t ht))).moves ht hleft

/-- **C181 (all end).** And once each has had enough turns (`blocks` is any way of running in which each stretch lets every thread try), all have ended. -/
theorem C181_all_end (n : ℕ) (tasks : ℕ → Task) (hs : ∀ t < n, (tasks t).mdl.sound = true) (blocks : List (List ℕ)) (hb : ∀ b ∈ blocks, ∀ t < n, t ∈ b)
    (hlen : ((List.range n).map fun t => (tasks t).prog.flat.length).sum ≤ blocks.length) (t : ℕ) (ht : t < n) :
    (runSched n (begin fun i => (tasks i).prog) blocks.flatten).rest t = [] :=
  ends_of_ok blocks (begin_ok n _ fun t ht => task_sound (tasks t) (hs t ht)) hb hlen t ht

theorem ordered_count (c : Sec) : ∀ (p : List Ev) {st : List Sec}, Ordered st p → p.count (.exit c) = p.count (.enter c) + st.count c
  | [], st, h => by simp only [Ordered] at h; simp [h]
  | .enter s :: p, st, h => by
    have := ordered_count c p h.2
    simp only [List.count_cons, beq_iff_eq, reduceCtorEq, if_false, Ev.enter.injEq] at this ⊢
    split_ifs at this ⊢ <;> omega
  | .exit s :: p, [], h => h.elim
  | .exit s :: p, x :: st, h => by
    obtain ⟨rfl, h⟩ := h
    have := ordered_count c p h
    simp only [List.count_cons, beq_iff_eq, reduceCtorEq, if_false, Ev.exit.injEq] at this ⊢
    split_ifs at this ⊢ <;> omega

/-- **C181 (what the sections are for).** At no time are two threads inside the same section. -/
theorem C181_exclusive (n : ℕ) (tasks : ℕ → Task) (hs : ∀ t < n, (tasks t).mdl.sound = true) (σ : List ℕ) (c : Sec) (t t' : ℕ) (ht : t < n) (ht' : t' < n)
    (h : inside (runSched n (begin fun i => (tasks i).prog) σ) t c) (h' : inside (runSched n (begin fun i => (tasks i).prog) σ) t' c) : t = t' := by
  obtain ⟨st, h1, h2, -⟩ := run_ok σ (begin_ok n (fun i => (tasks i).prog) fun t ht => task_sound (tasks t) (hs t ht))
  have key : ∀ x < n, inside (runSched n (begin fun i => (tasks i).prog) σ) x c → (runSched n (begin fun i => (tasks i).prog) σ).own c = some x := by
    intro x hx hi
    refine (h2 c x).2 ⟨hx, ?_⟩
    have := ordered_count c _ (h1 x hx)
    unfold inside at hi
    exact List.count_pos_iff.1 (by omega)
  have e1 := key t ht h
  rw [key t' ht' h'] at e1
  exact (Option.some.inj e1).symm

/-- A case: three threads, with a Markov chain whose likelihood is a kernel density's, draws that need a chain, and a mixture. -/
example : ∀ t < 3, ((fun t => if t = 0 then Task.chain ⟨5, 100, 2, true⟩ (.kernel (.plain none) 10) else if t = 1 then .draw ⟨1, 1000, 3, true⟩ (.noDraw (.plain (some 7)))
    else .draw ⟨1, 1, 1, true⟩ (.mixture (.kernel (.plain none) 4) [.plain none])) t).mdl.sound = true := by
  intro t ht
  have : t = 0 ∨ t = 1 ∨ t = 2 := by omega
  rcases this with rfl | rfl | rfl <;> rfl

/-- **C181 (entering twice).** A thread whose program enters a section and enters it again before leaving never gets further, whatever the others do and whatever the schedule. -/
theorem stuck_twice (n : ℕ) (progs : ℕ → Prog) (c : Sec) (t : ℕ) (q : List Ev) (hq : (progs t).flat = .enter c :: .enter c :: q) (σ : List ℕ)
    (hothers : ∀ x < n, x ≠ t → .exit c ∉ (progs x).flat) : (runSched n (begin progs) σ).rest t ≠ [] := by
  have key : ∀ (σ : List ℕ) (s : Sys), (s.rest t = .enter c :: .enter c :: q ∨ (s.rest t = .enter c :: q ∧ s.own c = some t)) → (∀ x < n, x ≠ t → .exit c ∉ s.rest x) →
      (runSched n s σ).rest t ≠ [] := by
    intro σ
    induction σ with
    | nil => intro s h _; rcases h with h | h <;> simp [runSched, h]
    | cons x σ ih =>
      intro s h ho
      show (runSched n (pick n s x) σ).rest t ≠ []
      by_cases hc : x < n ∧ canStep s x = true
      · have e : pick n s x = act s x := by unfold pick; rw [if_pos hc]
        rw [e]
        by_cases hxt : x = t
        · subst hxt
          rcases h with h | ⟨h, hown⟩
          · refine ih _ (.inr ⟨by simp [act, h], by simp [act, h]⟩) ?_
            intro y hy hne
            simp only [act, h, if_neg hne]
            exact ho y hy hne
          · have := hc.2
            simp [canStep, h, hown] at this
        · cases hr : s.rest x with
          | nil => have := hc.2; simp [canStep, hr] at this
          | cons e p =>
            have hp : Ev.exit c ∉ e :: p := hr ▸ ho x hc.1 hxt
            cases e with
            | enter d =>
              have hfree : s.own d = none := by have := hc.2; simpa [canStep, hr, Option.isNone_iff_eq_none] using this
              refine ih _ ?_ ?_
              · rcases h with h | ⟨h, hown⟩
                · left; simp [act, hr, Ne.symm hxt, h]
                · right
                  refine ⟨by simp [act, hr, Ne.symm hxt, h], ?_⟩
                  have : c ≠ d := by rintro rfl; rw [hown] at hfree; cases hfree
                  simp [act, hr, this, hown]
              · intro y hy hne
                simp only [act, hr]
                split_ifs with e
                · exact fun hm => hp (List.mem_cons_of_mem _ hm)
                · exact ho y hy hne
            | exit d =>
              have hcd : c ≠ d := by rintro rfl; exact hp (by simp)
              refine ih _ ?_ ?_
              · rcases h with h | ⟨h, hown⟩
                · left; simp [act, hr, Ne.symm hxt, h]
                · right; exact ⟨by simp [act, hr, Ne.symm hxt, h], by simp [act, hr, hcd, hown]⟩
              · intro y hy hne
                simp only [act, hr]
                split_ifs with e
                · exact fun hm => hp (List.mem_cons_of_mem _ hm)
                · exact ho y hy hne
      · have e : pick n s x = s := by unfold pick; rw [if_neg hc]
        rw [e]
        exact ih s h ho
  exact key σ _ (.inl hq) hothers

/-- **C181 (a kernel density of kernel densities: refuted).** If the kernel of a kernel density is itself a kernel density (with some data in each), evaluating the likelihood never ends: the one thread there is waits for itself. -/
theorem C181_kernel_kernel_refuted (c : Counts) (k : Mdl) (r r' : ℕ) (h1 : 0 < c.rows) (h2 : 0 < r) (h3 : 0 < r') (σ : List ℕ) :
    (runSched 1 (begin fun _ => ll c (.kernel (.kernel k r') r)) σ).rest 0 ≠ [] := by
  obtain ⟨a, ha⟩ : ∃ a, c.rows * r = a + 1 := ⟨c.rows * r - 1, by have := Nat.mul_pos h1 h2; omega⟩
  obtain ⟨b, hb⟩ : ∃ b, c.rows * r' = b + 1 := ⟨c.rows * r' - 1, by have := Nat.mul_pos h1 h3; omega⟩
  refine stuck_twice 1 _ .kernel 0 (((ll c k).flat ++ [.exit .kernel] ++ ((Prog.crit .kernel (ll c k)).times b).flat ++ [.exit .kernel]) ++
    ((Prog.crit .kernel (ll c (.kernel k r'))).times a).flat) ?_ σ (by intro x hx hne; omega)
  rw [show ll c (.kernel (.kernel k r') r) = (Prog.crit .kernel (ll c (.kernel k r'))).times (c.rows * r) by simp [ll], ha]
  simp only [Prog.times, Prog.flat]
  rw [show ll c (.kernel k r') = (Prog.crit .kernel (ll c k)).times (c.rows * r') by simp [ll], hb]
  simp [Prog.times, Prog.flat]

/-- **C181 (two threads that wait for one another: refuted).** One thread draws from a model that has no draw method: it is in `apop_draw` and wants `metropolis`. The other runs a Markov chain on a model whose likelihood draws from such a model: it is in `metropolis` and wants
`apop_draw`. There is a schedule from which on nothing moves. -/
theorem C181_cross_refuted (c : Counts) (hf : c.first = true) (hst : 0 < c.steps) (r : ℕ) (hr : 0 < r) :
    ∃ σ : List ℕ, ∀ σ' : List ℕ,
      (runSched 2 (begin fun i => if i = 0 then draw c (.noDraw (.plain none)) else metropolis c.steps (ll c (.sim (.noDraw (.plain none)) r))) (σ ++ σ')).rest 0 ≠ [] ∧
      (runSched 2 (begin fun i => if i = 0 then draw c (.noDraw (.plain none)) else metropolis c.steps (ll c (.sim (.noDraw (.plain none)) r))) (σ ++ σ')).rest 1 ≠ [] := by
  obtain ⟨a, ha⟩ : ∃ a, c.steps = a + 1 := ⟨c.steps - 1, by omega⟩
  obtain ⟨b, hb⟩ : ∃ b, r = b + 1 := ⟨r - 1, by omega⟩
  have h0 : ∃ p, (draw c (.noDraw (.plain none))).flat = .enter .apopDraw :: .enter .metropolis :: p := by
    simp [draw, hf, Prog.flat, metropolis]
  have h1 : ∃ p, (metropolis c.steps (ll c (.sim (.noDraw (.plain none)) r))).flat = .enter .metropolis :: .enter .newVtable :: .exit .newVtable :: .enter .apopDraw :: p := by
    rw [ha, hb]
    simp [ll, draw, hf, Prog.flat, metropolis, Prog.times]
  obtain ⟨p0, h0⟩ := h0
  obtain ⟨p1, h1⟩ := h1
  have hstuck : ∀ (σ' : List ℕ) (s : Sys), s.rest 0 = .enter .metropolis :: p0 → s.rest 1 = .enter .apopDraw :: p1 → s.own .apopDraw = some 0 → s.own .metropolis = some 1 →
      runSched 2 s σ' = s := by
    intro σ'
    induction σ' with
    | nil => intro s _ _ _ _; rfl
    | cons x σ' ih =>
      intro s e1 e2 e3 e4
      have : pick 2 s x = s := by
        unfold pick
        rw [if_neg]
        rintro ⟨hx, hcan⟩
        have : x = 0 ∨ x = 1 := by omega
        rcases this with rfl | rfl
        · simp [canStep, e1, e4] at hcan
        · simp [canStep, e2, e3] at hcan
      show runSched 2 (pick 2 s x) σ' = s
      rw [this]
      exact ih s e1 e2 e3 e4
  refine ⟨[0, 1, 1, 1], fun σ' => ?_⟩
  have hsplit : ∀ s : Sys, runSched 2 s ([0, 1, 1, 1] ++ σ') = runSched 2 (runSched 2 s [0, 1, 1, 1]) σ' := by intro s; simp [runSched, List.foldl_append]
  rw [hsplit]
  have hb : (begin fun i => if i = 0 then draw c (.noDraw (.plain none)) else metropolis c.steps (ll c (.sim (.noDraw (.plain none)) r))) =
      ⟨fun _ => none, fun t => if t = 0 then .enter .apopDraw :: .enter .metropolis :: p0 else .enter .metropolis :: .enter .newVtable :: .exit .newVtable :: .enter .apopDraw :: p1⟩ := by
    unfold begin
    congr 1
    funext t
    by_cases h : t = 0
    · simp only [h, if_true]; exact h0
    · simp only [h, if_false]; exact h1
  rw [hb, hstuck]
  · simp [runSched, pick, canStep, act]
  all_goals simp [runSched, pick, canStep, act]

/-- **C181 (a chain inside a chain: refuted).** A Markov chain on a model whose likelihood itself runs one waits for itself too. The vtables' section comes in between, so this is not `stuck_twice`. -/
theorem C181_chain_chain_refuted (c : Counts) (b : Mdl) (r : ℕ) (hst : 0 < c.steps) (σ : List ℕ) :
    (runSched 1 (begin fun _ => metropolis c.steps (ll c (.chain b r))) σ).rest 0 ≠ [] := by
  obtain ⟨a, ha⟩ : ∃ a, c.steps = a + 1 := ⟨c.steps - 1, by omega⟩
  have h1 : ∃ p, (metropolis c.steps (ll c (.chain b r))).flat = .enter .metropolis :: .enter .newVtable :: .exit .newVtable :: .enter .metropolis :: p := by
    rw [ha]
    simp [ll, Prog.flat, metropolis, Prog.times]
  obtain ⟨p, h1⟩ := h1
  have key : ∀ (σ : List ℕ) (s : Sys),
      (s.rest 0 = .enter .metropolis :: .enter .newVtable :: .exit .newVtable :: .enter .metropolis :: p ∨
       (s.own .metropolis = some 0 ∧ (s.rest 0 = .enter .newVtable :: .exit .newVtable :: .enter .metropolis :: p ∨ s.rest 0 = .exit .newVtable :: .enter .metropolis :: p ∨ s.rest 0 = .enter .metropolis :: p))) →
      (runSched 1 s σ).rest 0 ≠ [] := by
    intro σ
    induction σ with
    | nil => intro s h; rcases h with h | ⟨_, h | h | h⟩ <;> simp [runSched, h]
    | cons x σ ih =>
      intro s h
      show (runSched 1 (pick 1 s x) σ).rest 0 ≠ []
      by_cases hc : x < 1 ∧ canStep s x = true
      · have e : pick 1 s x = act s x := by unfold pick; rw [if_pos hc]
        rw [e]
        obtain rfl : x = 0 := by omega
        rcases h with h | ⟨ho, h | h | h⟩
        · exact ih _ (.inr ⟨by simp [act, h], .inl (by simp [act, h])⟩)
        · exact ih _ (.inr ⟨by simp [act, h, ho], .inr (.inl (by simp [act, h]))⟩)
        · exact ih _ (.inr ⟨by simp [act, h, ho], .inr (.inr (by simp [act, h]))⟩)
        · have := hc.2; simp [canStep, h, ho] at this
      · have e : pick 1 s x = s := by unfold pick; rw [if_neg hc]
        rw [e]
        exact ih s h
  exact key σ _ (.inl h1)

end Apop.Sect
