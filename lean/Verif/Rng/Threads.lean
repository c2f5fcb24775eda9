import Mathlib.Tactic.SplitIfs
import Mathlib.Tactic.Linarith
import Mathlib.Algebra.Order.Group.Nat
import Mathlib.Algebra.Order.BigOperators.Group.List

/-! # C182: threads asking for their generators

`apop_rng_get_thread(k)` (apop_asst.m4.c:355-377), called by any number of threads at once, under any schedule. The table of generators is made longer inside a critical section, but read after it. -/

namespace Apop.RngPar

/-- The memory of a table: never allocated; in use, an element that is `none` not written yet; freed. A generator is known by its seed. -/
inductive Blk where
  | unused
  | live (l : List (Option ℕ))
  | freed

/-- What the threads share: tables by address, the next free address, the static pointer `rngs`, `rng_ct + 1`, `apop_opts.rng_seed`, and who is inside the critical section. -/
structure Mem where
  blk : ℕ → Blk
  next : ℕ
  rngs : Option ℕ
  count : ℕ
  seed : ℕ
  sec : Option ℕ

/-- Where a thread is. -/
inductive Pc where
  | start
  | test
  | fill (i : ℕ)
  | leave
  | load
  | deref (p : Option ℕ)
  | done (g : ℕ)
  | ub
  deriving DecidableEq

/-- The generators that the pointer leads to. -/
def Mem.table (m : Mem) : List (Option ℕ) :=
  match m.rngs with
  | none => []
  | some c => match m.blk c with
    | .live l => l
    | _ => []

/-- Free the table that there is. -/
def Mem.release (m : Mem) : ℕ → Blk :=
  match m.rngs with
  | none => m.blk
  | some c => fun a => if a = c then .freed else m.blk a

/-- `rngs = realloc(rngs, sizeof(gsl_rng*)*(thread+1))`, apop_asst.m4.c:371: the block moves, which it may. -/
def Mem.grow (m : Mem) (k : ℕ) : Mem :=
  { m with blk := fun a => if a = m.next then .live (m.table ++ List.replicate (k + 1 - m.table.length) none) else m.release a, next := m.next + 1, rngs := some m.next }

/-- `rngs[i] = apop_rng_alloc(++apop_opts.rng_seed)`, apop_asst.m4.c:373. -/
def Mem.put (m : Mem) (c i : ℕ) : Mem :=
  { m with blk := fun a => if a = c then .live (m.table.set i (some (m.seed + 1))) else m.blk a, seed := m.seed + 1 }

/-- The loop of apop_asst.m4.c:372-374, an element at a time, then `rng_ct = thread`. -/
def fillStep (m : Mem) (k i : ℕ) : Mem × Pc :=
  if i ≤ k then
    match m.rngs with
    | none => (m, .ub)
    | some c => if i < m.table.length then (m.put c i, .fill (i + 1)) else (m, .ub)
  else ({ m with count := k + 1 }, .leave)

/-- `return rngs[thread]`, the read of the table: apop_asst.m4.c:376. -/
def derefStep (m : Mem) (k : ℕ) : Option ℕ → Pc
  | none => .ub
  | some p => match m.blk p with
    | .live l => match l[k]? with
      | some (some g) => .done g
      | _ => .ub
    | _ => .ub

/-- One step of thread `t`, which asks for generator `k`; `none` if it has to wait or has ended. -/
def step (t k : ℕ) (m : Mem) : Pc → Option (Mem × Pc)
  | .start => if m.sec = none then some ({ m with sec := some t }, .test) else none
  | .test => if m.count ≤ k then some (m.grow k, .fill m.count) else some (m, .leave)
  | .fill i => some (fillStep m k i)
  | .leave => some ({ m with sec := none }, .load)
  | .load => some (m, .deref m.rngs)
  | .deref p => some (m, derefStep m k p)
  | .done _ => none
  | .ub => none

structure Sys where
  mem : Mem
  pc : ℕ → Pc

/-- The scheduler picks thread `t` of `n`. -/
def pick (n : ℕ) (k : ℕ → ℕ) (s : Sys) (t : ℕ) : Sys :=
  if t < n then
    match step t (k t) s.mem (s.pc t) with
    | none => s
    | some (m, p) => ⟨m, fun i => if i = t then p else s.pc i⟩
  else s

def runSched (n : ℕ) (k : ℕ → ℕ) (s : Sys) (σ : List ℕ) : Sys := σ.foldl (pick n k) s

/-- No generator yet: apop_asst.m4.c:356-357. -/
def cold (seed : ℕ) : Sys := ⟨⟨fun _ => .unused, 0, none, 0, seed, none⟩, fun _ => .start⟩

/-- After a call that asked for generator `c - 1`, from the beginning. -/
def warm (seed c : ℕ) : Sys := ⟨⟨fun a => if a = 0 then .live ((List.range c).map fun i => some (seed + i + 1)) else .unused, 1, some 0, c, seed + c, none⟩, fun _ => .start⟩

/-! ## Proofs -/

/-- The first `f` generators are there, in order. -/
def Filled (seed f : ℕ) (l : List (Option ℕ)) : Prop := f ≤ l.length ∧ ∀ j < f, l[j]? = some (some (seed + j + 1))

/-- The memory: `f` generators made. -/
structure MemOk (seed f : ℕ) (m : Mem) : Prop where
  filled : Filled seed f m.table
  le : m.count ≤ f
  seed : m.seed = seed + f
  fresh : ∀ a, m.next ≤ a → m.blk a = .unused
  cur : ∀ c, m.rngs = some c → c < m.next ∧ ∃ l, m.blk c = .live l
  only : ∀ a l, m.blk a = .live l → m.rngs = some a

/-- Where a thread may be. -/
def PcOk (f k : ℕ) (m : Mem) (seed t : ℕ) : Pc → Prop
  | .start => m.sec ≠ some t
  | .test => m.sec = some t ∧ f = m.count
  | .fill i => m.sec = some t ∧ f = i ∧ i ≤ k + 1 ∧ k < m.table.length ∧ ∃ c, m.rngs = some c
  | .leave => m.sec = some t ∧ k < m.count ∧ f = m.count
  | .load => m.sec ≠ some t ∧ k < m.count
  | .deref p => m.sec ≠ some t ∧ k < m.count ∧ ∃ c, p = some c ∧ c < m.next
  | .done g => m.sec ≠ some t ∧ g = seed + k + 1
  | .ub => m.sec ≠ some t

theorem grow_table (m : Mem) (k : ℕ) : (m.grow k).table = m.table ++ List.replicate (k + 1 - m.table.length) none := by
  simp [Mem.grow, Mem.table]

theorem table_blk {m : Mem} {c : ℕ} {l : List (Option ℕ)} (h1 : m.rngs = some c) (h2 : m.blk c = .live l) : m.table = l := by
  simp [Mem.table, h1, h2]

theorem grow_ok {seed f : ℕ} {m : Mem} (h : MemOk seed f m) (k : ℕ) : MemOk seed f (m.grow k) := by
  refine ⟨?_, h.le, h.seed, ?_, ?_, ?_⟩
  · rw [grow_table]
    refine ⟨by have := h.filled.1; simp; omega, fun j hj => ?_⟩
    rw [List.getElem?_append_left (by have := h.filled.1; omega)]
    exact h.filled.2 j hj
  · intro a ha
    simp only [Mem.grow] at ha ⊢
    rw [if_neg (by omega)]
    have hfr := h.fresh a (by omega)
    unfold Mem.release
    cases hr : m.rngs with
    | none => exact hfr
    | some c =>
      simp only
      rw [if_neg]
      · exact hfr
      · have := (h.cur c hr).1; omega
  · intro c hc
    simp only [Mem.grow, Option.some.injEq] at hc ⊢
    subst hc
    exact ⟨by omega, _, by rw [if_pos rfl]⟩
  · intro a l hl
    simp only [Mem.grow] at hl ⊢
    by_cases ha : a = m.next
    · rw [ha]
    · exfalso
      rw [if_neg ha] at hl
      unfold Mem.release at hl
      cases hr : m.rngs with
      | none => rw [hr] at hl; have := h.only a l hl; rw [hr] at this; cases this
      | some c =>
        rw [hr] at hl
        simp only at hl
        split_ifs at hl with e
        have := h.only a l hl
        rw [hr] at this
        exact e (Option.some.inj this).symm

theorem put_table {m : Mem} {c : ℕ} (h : m.rngs = some c) (i : ℕ) : (m.put c i).table = m.table.set i (some (m.seed + 1)) := by
  simp only [Mem.put]
  rw [Mem.table]
  simp [h]

theorem put_ok {seed i : ℕ} {m : Mem} (h : MemOk seed i m) {c : ℕ} (hc : m.rngs = some c) (hi : i < m.table.length) : MemOk seed (i + 1) (m.put c i) := by
  refine ⟨?_, by have := h.le; simp only [Mem.put]; omega, by simp only [Mem.put, h.seed]; omega, ?_, ?_, ?_⟩
  · rw [put_table hc]
    refine ⟨by simp; omega, fun j hj => ?_⟩
    by_cases hji : j = i
    · subst hji; rw [List.getElem?_set_self hi, h.seed]
    · rw [List.getElem?_set_ne (by omega)]; exact h.filled.2 j (by omega)
  · intro a ha
    simp only [Mem.put] at ha ⊢
    have := (h.cur c hc).1
    rw [if_neg (by omega)]
    exact h.fresh a ha
  · intro d hd
    simp only [Mem.put] at hd ⊢
    refine ⟨(h.cur d hd).1, ?_⟩
    rw [hc] at hd; cases hd
    exact ⟨_, by rw [if_pos rfl]⟩
  · intro a l hl
    simp only [Mem.put] at hl ⊢
    by_cases ha : a = c
    · rw [ha]; exact hc
    · rw [if_neg ha] at hl; exact h.only a l hl

/-- The others when one moves. -/
theorem PcOk.other {f f' k seed t : ℕ} {m m' : Mem} {p : Pc} (h : PcOk f k m seed t p) (h1 : m'.sec = some t ↔ m.sec = some t) (h2 : m.count ≤ m'.count) (h3 : m.next ≤ m'.next)
    (h4 : m.sec = some t → m' = m ∧ f' = f) : PcOk f' k m' seed t p := by
  by_cases hs : m.sec = some t
  · obtain ⟨rfl, rfl⟩ := h4 hs; exact h
  · have hs' : m'.sec ≠ some t := fun h => hs (h1.1 h)
    cases p with
    | start => exact hs'
    | test => exact absurd h.1 hs
    | fill i => exact absurd h.1 hs
    | leave => exact absurd h.1 hs
    | load => exact ⟨hs', lt_of_lt_of_le h.2 h2⟩
    | deref p =>
      obtain ⟨-, hk, c, hc, hn⟩ := h
      exact ⟨hs', lt_of_lt_of_le hk h2, c, hc, lt_of_lt_of_le hn h3⟩
    | done g => exact ⟨hs', h.2⟩
    | ub => exact hs'

/-- What a step leaves. -/
structure Moved (seed f k n : ℕ) (m : Mem) (t : ℕ) (m' : Mem) (p' : Pc) (f' : ℕ) : Prop where
  mem : MemOk seed f' m'
  pc : PcOk f' k m' seed t p'
  idle : m'.sec = none → f' = m'.count
  sec : ∀ t', t' ≠ t → (m'.sec = some t' ↔ m.sec = some t')
  count : m.count ≤ m'.count
  next : m.next ≤ m'.next
  same : m.sec = some t ∨ m.sec = none ∨ (m' = m ∧ f' = f)
  lt : ∀ x, m'.sec = some x → x < n
  fe : m.sec ≠ some t → f' = f

theorem locks {seed f : ℕ} {m : Mem} (h : MemOk seed f m) (a : Option ℕ) : MemOk seed f { m with sec := a } := ⟨h.filled, h.le, h.seed, h.fresh, h.cur, h.only⟩

theorem step_moved {seed f k n t : ℕ} {m m' : Mem} {p p' : Pc} (ht : t < n) (hn : ∀ x, m.sec = some x → x < n) (hm : MemOk seed f m) (hi : m.sec = none → f = m.count) (hp : PcOk f k m seed t p) (h : step t k m p = some (m', p')) :
    ∃ f', Moved seed f k n m t m' p' f' := by
  cases p with
  | start =>
    simp only [step] at h
    split_ifs at h with hs
    simp only [Option.some.injEq, Prod.mk.injEq] at h
    obtain ⟨rfl, rfl⟩ := h
    refine ⟨f, locks hm _, ⟨rfl, hi hs⟩, by simp, ?_, le_rfl, le_rfl, .inr (.inl hs), ?_, fun _ => rfl⟩
    · intro t' htt; simp [hs, Ne.symm htt]
    · intro x hx; simp only [Option.some.injEq] at hx; rw [← hx]; exact ht
  | test =>
    obtain ⟨hs, hf⟩ := hp
    simp only [step] at h
    split_ifs at h with hk
    · simp only [Option.some.injEq, Prod.mk.injEq] at h
      obtain ⟨rfl, rfl⟩ := h
      refine ⟨f, grow_ok hm k, ⟨hs, hf, by omega, ?_, m.next, rfl⟩, ?_, fun _ _ => Iff.rfl, le_rfl, by simp [Mem.grow], .inl hs, hn, fun _ => rfl⟩
      · rw [grow_table]; simp; omega
      · intro hc; rw [show (m.grow k).sec = m.sec from rfl, hs] at hc; cases hc
    · simp only [Option.some.injEq, Prod.mk.injEq] at h
      obtain ⟨rfl, rfl⟩ := h
      exact ⟨f, hm, ⟨hs, by omega, hf⟩, hi, fun _ _ => Iff.rfl, le_rfl, le_rfl, .inl hs, hn, fun _ => rfl⟩
  | fill i =>
    obtain ⟨hs, hf, hik, hlen, c, hc⟩ := hp
    simp only [step, fillStep, Option.some.injEq] at h
    by_cases hle : i ≤ k
    · rw [if_pos hle] at h
      simp only [hc] at h
      rw [if_pos (by omega)] at h
      simp only [Prod.mk.injEq] at h
      obtain ⟨rfl, rfl⟩ := h
      subst hf
      refine ⟨f + 1, put_ok hm hc (by omega), ⟨hs, rfl, by omega, ?_, c, hc⟩, ?_, fun _ _ => Iff.rfl, le_rfl, le_rfl, .inl hs, hn, fun h => absurd hs h⟩
      · rw [put_table hc]; simpa using hlen
      · intro hc'; rw [show (m.put c f).sec = m.sec from rfl, hs] at hc'; cases hc'
    · rw [if_neg hle] at h
      simp only [Prod.mk.injEq] at h
      obtain ⟨rfl, rfl⟩ := h
      have hfk : f = k + 1 := by omega
      have hcl := hm.le
      refine ⟨f, ⟨hm.filled, by simp only; omega, hm.seed, hm.fresh, hm.cur, hm.only⟩, ⟨hs, by simp only; omega, hfk⟩, fun _ => hfk, fun _ _ => Iff.rfl, by simp only; omega, le_rfl, .inl hs, hn, fun _ => rfl⟩
  | leave =>
    obtain ⟨hs, hk, hf⟩ := hp
    simp only [step, Option.some.injEq, Prod.mk.injEq] at h
    obtain ⟨rfl, rfl⟩ := h
    refine ⟨f, locks hm _, ⟨by simp, hk⟩, fun _ => hf, ?_, le_rfl, le_rfl, .inl hs, by simp, fun _ => rfl⟩
    intro t' htt; simp [hs, Ne.symm htt]
  | load =>
    obtain ⟨hs, hk⟩ := hp
    simp only [step, Option.some.injEq, Prod.mk.injEq] at h
    obtain ⟨rfl, rfl⟩ := h
    have : ∃ c, m.rngs = some c := by
      cases hr : m.rngs with
      | some c => exact ⟨c, rfl⟩
      | none =>
        have h1 := hm.filled.1
        have h2 := hm.le
        simp [Mem.table, hr] at h1
        omega
    obtain ⟨c, hc⟩ := this
    exact ⟨f, hm, ⟨hs, hk, c, hc, (hm.cur c hc).1⟩, hi, fun _ _ => Iff.rfl, le_rfl, le_rfl, .inr (.inr ⟨rfl, rfl⟩), hn, fun _ => rfl⟩
  | deref p =>
    obtain ⟨hs, hk, c, rfl, hcn⟩ := hp
    simp only [step, Option.some.injEq, Prod.mk.injEq] at h
    obtain ⟨rfl, rfl⟩ := h
    refine ⟨f, hm, ?_, hi, fun _ _ => Iff.rfl, le_rfl, le_rfl, .inr (.inr ⟨rfl, rfl⟩), hn, fun _ => rfl⟩
    cases hb : m.blk c with
    | unused => rw [show derefStep m k (some c) = .ub by simp [derefStep, hb]]; exact hs
    | freed => rw [show derefStep m k (some c) = .ub by simp [derefStep, hb]]; exact hs
    | live l =>
      have hr := hm.only c l hb
      have ht := table_blk hr hb
      have := hm.filled.2 k (by have := hm.le; omega)
      rw [ht] at this
      rw [show derefStep m k (some c) = .done (seed + k + 1) by simp [derefStep, hb, this]]
      exact ⟨hs, rfl⟩
  | done g => simp [step] at h
  | ub => simp [step] at h

/-- The invariant of the whole. -/
def Ok (seed n : ℕ) (k : ℕ → ℕ) (s : Sys) : Prop :=
  ∃ f, MemOk seed f s.mem ∧ (s.mem.sec = none → f = s.mem.count) ∧ (∀ x, s.mem.sec = some x → x < n) ∧ ∀ t < n, PcOk f (k t) s.mem seed t (s.pc t)

theorem pick_ok {seed n : ℕ} {k : ℕ → ℕ} {s : Sys} (h : Ok seed n k s) (t : ℕ) : Ok seed n k (pick n k s t) := by
  unfold pick
  split_ifs with ht
  · cases hs : step t (k t) s.mem (s.pc t) with
    | none => exact h
    | some q =>
      obtain ⟨m', p'⟩ := q
      obtain ⟨f, hm, hi, hl, hp⟩ := h
      obtain ⟨f', hM⟩ := step_moved ht hl hm hi (hp t ht) hs
      refine ⟨f', hM.mem, hM.idle, hM.lt, fun t' ht' => ?_⟩
      simp only
      by_cases he : t' = t
      · subst he; rw [if_pos rfl]; exact hM.pc
      · rw [if_neg he]
        refine (hp t' ht').other (hM.sec t' he) hM.count hM.next ?_
        intro hsec
        rcases hM.same with h | h | h
        · rw [hsec] at h; cases h; exact absurd rfl he
        · rw [hsec] at h; cases h
        · exact h
  · exact h

theorem run_ok {seed n : ℕ} {k : ℕ → ℕ} : ∀ (σ : List ℕ) {s : Sys}, Ok seed n k s → Ok seed n k (runSched n k s σ)
  | [], _, h => h
  | t :: σ, _, h => run_ok σ (pick_ok h t)

theorem cold_ok (seed n : ℕ) (k : ℕ → ℕ) : Ok seed n k (cold seed) :=
  ⟨0, ⟨⟨by simp, by simp⟩, le_rfl, rfl, fun _ _ => rfl, by simp [cold], by simp [cold]⟩, fun _ => rfl, by simp [cold], fun t _ => by simp [PcOk, cold]⟩

theorem warm_ok (seed c n : ℕ) (k : ℕ → ℕ) : Ok seed n k (warm seed c) := by
  have htab : (warm seed c).mem.table = (List.range c).map fun i => some (seed + i + 1) := by simp [warm, Mem.table]
  refine ⟨c, ⟨⟨by rw [htab]; simp, fun j hj => by rw [htab]; simp [hj]⟩, le_rfl, rfl, ?_, ?_, ?_⟩, fun _ => rfl, by simp [warm], fun t _ => by simp [PcOk, warm]⟩
  · intro a ha; simp only [warm] at ha ⊢; rw [if_neg (by omega)]
  · intro a ha; simp only [warm, Option.some.injEq] at ha ⊢; subst ha; exact ⟨by omega, _, by rw [if_pos rfl]⟩
  · intro a l hl; simp only [warm] at hl ⊢; split_ifs at hl with e; rw [e]

/-- **C182 (each gets its own).** From the start, any number of threads, whatever numbers they ask for and whatever the schedule: a thread that has got a generator has got the one of the number it asked for, seeded with the seed at the start plus that
number plus one, whoever came first. -/
theorem C182_own (seed n : ℕ) (k : ℕ → ℕ) (σ : List ℕ) (t g : ℕ) (ht : t < n) (h : (runSched n k (cold seed) σ).pc t = .done g) : g = seed + k t + 1 := by
  obtain ⟨f, -, -, -, hp⟩ := run_ok σ (cold_ok seed n k)
  have := hp t ht
  rw [h] at this
  exact this.2

/-- So threads that ask for different numbers never share one. -/
theorem C182_distinct (seed n : ℕ) (k : ℕ → ℕ) (σ : List ℕ) (t t' g g' : ℕ) (ht : t < n) (ht' : t' < n) (hk : k t ≠ k t')
    (h : (runSched n k (cold seed) σ).pc t = .done g) (h' : (runSched n k (cold seed) σ).pc t' = .done g') : g ≠ g' := by
  rw [C182_own seed n k σ t g ht h, C182_own seed n k σ t' g' ht' h']
  omega

/-- **C182 (the table is never spoiled).** Whenever nobody is inside the section, the table holds the generators up to `rng_ct`, in order and each seeded by its number, and the seed in the options has gone up by how many there are. -/
theorem C182_table (seed n : ℕ) (k : ℕ → ℕ) (σ : List ℕ) (h : (runSched n k (cold seed) σ).mem.sec = none) :
    (∀ j < (runSched n k (cold seed) σ).mem.count, (runSched n k (cold seed) σ).mem.table[j]? = some (some (seed + j + 1))) ∧
    (runSched n k (cold seed) σ).mem.seed = seed + (runSched n k (cold seed) σ).mem.count := by
  obtain ⟨f, hm, hi, -, -⟩ := run_ok σ (cold_ok seed n k)
  have hf := hi h
  subst hf
  exact ⟨hm.filled.2, hm.seed⟩

/-- How many steps a thread that asks for `k` has left. -/
def rank (k : ℕ) : Pc → ℕ
  | .start => k + 8
  | .test => k + 7
  | .fill i => (k + 1 - i) + 5
  | .leave => 4
  | .load => 3
  | .deref _ => 2
  | .done _ => 0
  | .ub => 0

theorem step_rank {t k : ℕ} {m m' : Mem} {p p' : Pc} (h : step t k m p = some (m', p')) : rank k p' < rank k p := by
  cases p with
  | start =>
    simp only [step] at h
    split_ifs at h
    simp only [Option.some.injEq, Prod.mk.injEq] at h
    obtain ⟨-, rfl⟩ := h
    simp [rank]
  | test =>
    simp only [step] at h
    split_ifs at h <;> simp only [Option.some.injEq, Prod.mk.injEq] at h <;> obtain ⟨-, rfl⟩ := h <;> simp only [rank] <;> omega
  | fill i =>
    simp only [step, fillStep, Option.some.injEq] at h
    by_cases hi : i ≤ k
    · rw [if_pos hi] at h
      cases hr : m.rngs with
      | none => simp only [hr, Prod.mk.injEq] at h; obtain ⟨-, rfl⟩ := h; simp [rank]
      | some c =>
        simp only [hr] at h
        split_ifs at h <;> simp only [Prod.mk.injEq] at h <;> obtain ⟨-, rfl⟩ := h <;> simp only [rank] <;> omega
    · rw [if_neg hi] at h
      simp only [Prod.mk.injEq] at h
      obtain ⟨-, rfl⟩ := h
      simp only [rank]; omega
  | leave => simp only [step, Option.some.injEq, Prod.mk.injEq] at h; obtain ⟨-, rfl⟩ := h; simp [rank]
  | load => simp only [step, Option.some.injEq, Prod.mk.injEq] at h; obtain ⟨-, rfl⟩ := h; simp [rank]
  | deref q =>
    simp only [step, Option.some.injEq, Prod.mk.injEq] at h
    obtain ⟨-, rfl⟩ := h
    unfold derefStep
    split
    · simp [rank]
    · split
      · split <;> simp [rank]
      · simp [rank]
  | done g => simp [step] at h
  | ub => simp [step] at h

def Ended (p : Pc) : Prop := p = .ub ∨ ∃ g, p = .done g

theorem Ok.moves {seed n : ℕ} {k : ℕ → ℕ} {s : Sys} (h : Ok seed n k s) {t : ℕ} (ht : t < n) (hd : ¬ Ended (s.pc t)) : ∃ t' < n, step t' (k t') s.mem (s.pc t') ≠ none := by
  obtain ⟨f, hm, hi, hl, hp⟩ := h
  cases hs : s.mem.sec with
  | some x =>
    refine ⟨x, hl x hs, ?_⟩
    have := hp x (hl x hs)
    cases hx : s.pc x <;> rw [hx] at this <;> simp only [PcOk, hs, ne_eq, not_true_eq_false, false_and] at this
    · simp only [step]; split_ifs <;> simp
    · simp [step]
    · simp [step]
  | none =>
    refine ⟨t, ht, ?_⟩
    cases hx : s.pc t with
    | start => simp [step, hs]
    | test => simp only [step]; split_ifs <;> simp
    | fill i => simp [step]
    | leave => simp [step]
    | load => simp [step]
    | deref p => simp [step]
    | done g => exact absurd (.inr ⟨g, hx⟩) hd
    | ub => exact absurd (.inl hx) hd

def work (n : ℕ) (k : ℕ → ℕ) (s : Sys) : ℕ := ((List.range n).map fun t => rank (k t) (s.pc t)).sum

theorem sum_lt_of_one {f g : ℕ → ℕ} {n t : ℕ} (ht : t < n) (h1 : f t < g t) (h2 : ∀ x, x ≠ t → f x = g x) : ((List.range n).map f).sum < ((List.range n).map g).sum := by
  induction n with
  | zero => omega
  | succ n ih =>
    rw [List.range_succ]
    simp only [List.map_append, List.sum_append, List.map_cons, List.map_nil, List.sum_cons, List.sum_nil]
    by_cases he : t = n
    · subst he
      have : (List.range t).map f = (List.range t).map g := List.map_congr_left fun x hx => h2 x (by have := List.mem_range.1 hx; omega)
      rw [this]; omega
    · have := ih (by omega)
      rw [h2 n (by omega)]; omega

theorem pick_work {n : ℕ} {k : ℕ → ℕ} {s : Sys} {t : ℕ} (ht : t < n) (h : step t (k t) s.mem (s.pc t) ≠ none) : work n k (pick n k s t) < work n k s := by
  cases hs : step t (k t) s.mem (s.pc t) with
  | none => exact absurd hs h
  | some q =>
    obtain ⟨m', p'⟩ := q
    unfold pick
    rw [if_pos ht]
    simp only [hs]
    refine sum_lt_of_one ht ?_ ?_
    · simp only [if_true]; exact step_rank hs
    · intro x hx; simp only [if_neg hx]

theorem pick_same {n : ℕ} {k : ℕ → ℕ} {s : Sys} {t : ℕ} (h : ¬ (t < n ∧ step t (k t) s.mem (s.pc t) ≠ none)) : pick n k s t = s := by
  unfold pick
  split_ifs with ht
  · cases hs : step t (k t) s.mem (s.pc t) with
    | none => rfl
    | some q => exact absurd ⟨ht, by simp [hs]⟩ h
  · rfl

theorem run_work {n : ℕ} {k : ℕ → ℕ} : ∀ (σ : List ℕ) (s : Sys), work n k (runSched n k s σ) ≤ work n k s
  | [], _ => le_rfl
  | t :: σ, s => by
    refine le_trans (run_work σ _) ?_
    by_cases h : t < n ∧ step t (k t) s.mem (s.pc t) ≠ none
    · exact (pick_work h.1 h.2).le
    · rw [pick_same h]

theorem block_works {n t : ℕ} {k : ℕ → ℕ} (ht : t < n) : ∀ (b : List ℕ) {s : Sys}, t ∈ b → step t (k t) s.mem (s.pc t) ≠ none → work n k (runSched n k s b) < work n k s := by
  intro b
  induction b with
  | nil => intro s hb; simp at hb
  | cons x b ih =>
    intro s hb hstep
    show work n k (runSched n k (pick n k s x) b) < _
    by_cases hc : x < n ∧ step x (k x) s.mem (s.pc x) ≠ none
    · exact lt_of_le_of_lt (run_work b _) (pick_work hc.1 hc.2)
    · have hxt : x ≠ t := by rintro rfl; exact hc ⟨ht, hstep⟩
      rw [pick_same hc]
      exact ih (by simpa [Ne.symm hxt] using hb) hstep

theorem ends_of_ok {seed n : ℕ} {k : ℕ → ℕ} : ∀ (blocks : List (List ℕ)) {s : Sys}, Ok seed n k s → (∀ b ∈ blocks, ∀ t < n, t ∈ b) → work n k s ≤ blocks.length →
    ∀ t < n, Ended ((runSched n k s blocks.flatten).pc t) := by
  intro blocks
  induction blocks with
  | nil =>
    intro s h _ hw t ht
    apply Classical.byContradiction
    intro hd
    obtain ⟨t', ht', hm⟩ := h.moves ht hd
    have := block_works ht' [t'] (by simp) hm
    simp at hw
    omega
  | cons b bs ih =>
    intro s h hb hw t ht
    have hrun : runSched n k s (b :: bs).flatten = runSched n k (runSched n k s b) bs.flatten := by
      simp [runSched, List.foldl_append]
    rw [hrun]
    refine ih (run_ok b h) (fun b' hb' => hb b' (by simp [hb'])) ?_ t ht
    by_cases hall : ∀ t < n, Ended (s.pc t)
    · have h0 : work n k s = 0 := by
        unfold work
        rw [List.sum_eq_zero_iff]
        intro x hx
        obtain ⟨i, hi, rfl⟩ := List.mem_map.1 hx
        rcases hall i (List.mem_range.1 hi) with e | ⟨g, e⟩ <;> rw [e] <;> rfl
      have := run_work (n := n) (k := k) b s
      omega
    · have hall' : ∃ x, x < n ∧ ¬ Ended (s.pc x) := by
        apply Classical.byContradiction
        intro hc
        exact hall fun t ht => Classical.byContradiction fun hne => hc ⟨t, ht, hne⟩
      obtain ⟨x, hx, hd⟩ := hall'
      obtain ⟨t', ht', hm⟩ := h.moves hx hd
      have := block_works ht' b (hb b (by simp) t' ht') hm
      simp at hw
      omega

/-- When there are generators enough, nothing is ever made longer. -/
def Quiet (c : ℕ) (n : ℕ) (seed : ℕ) (s : Sys) : Prop :=
  s.mem.rngs = some 0 ∧ s.mem.count = c ∧ s.mem.blk 0 = .live ((List.range c).map fun i => some (seed + i + 1)) ∧
    ∀ t < n, s.pc t ≠ .ub ∧ (∀ i, s.pc t ≠ .fill i) ∧ ∀ p, s.pc t = .deref p → p = some 0

theorem quiet_pick {c n seed : ℕ} {k : ℕ → ℕ} (hk : ∀ t < n, k t < c) {s : Sys} (h : Quiet c n seed s) (t : ℕ) : Quiet c n seed (pick n k s t) := by
  unfold pick
  split_ifs with ht
  · obtain ⟨h1, h2, h3, h4⟩ := h
    have hkt := hk t ht
    cases hs : step t (k t) s.mem (s.pc t) with
    | none => exact ⟨h1, h2, h3, h4⟩
    | some q =>
      obtain ⟨m', p'⟩ := q
      have key : m'.rngs = some 0 ∧ m'.count = c ∧ m'.blk 0 = .live ((List.range c).map fun i => some (seed + i + 1)) ∧ p' ≠ .ub ∧ (∀ i, p' ≠ .fill i) ∧ ∀ p, p' = .deref p → p = some 0 := by
        obtain ⟨a1, a2, a3⟩ := h4 t ht
        cases hx : s.pc t with
        | start =>
          rw [hx] at hs
          simp only [step] at hs
          split_ifs at hs
          simp only [Option.some.injEq, Prod.mk.injEq] at hs
          obtain ⟨rfl, rfl⟩ := hs
          exact ⟨h1, h2, h3, by simp, by simp, by simp⟩
        | test =>
          rw [hx] at hs
          simp only [step] at hs
          rw [if_neg (by omega)] at hs
          simp only [Option.some.injEq, Prod.mk.injEq] at hs
          obtain ⟨rfl, rfl⟩ := hs
          exact ⟨h1, h2, h3, by simp, by simp, by simp⟩
        | fill i => exact absurd hx (a2 i)
        | leave =>
          rw [hx] at hs
          simp only [step, Option.some.injEq, Prod.mk.injEq] at hs
          obtain ⟨rfl, rfl⟩ := hs
          exact ⟨h1, h2, h3, by simp, by simp, by simp⟩
        | load =>
          rw [hx] at hs
          simp only [step, Option.some.injEq, Prod.mk.injEq] at hs
          obtain ⟨rfl, rfl⟩ := hs
          exact ⟨h1, h2, h3, by simp, by simp, by rintro p ⟨⟩; exact h1⟩
        | deref p =>
          obtain rfl := a3 p hx
          rw [hx] at hs
          simp only [step, Option.some.injEq, Prod.mk.injEq] at hs
          obtain ⟨rfl, rfl⟩ := hs
          have : derefStep s.mem (k t) (some 0) = .done (seed + k t + 1) := by simp [derefStep, h3, hkt]
          rw [this]
          exact ⟨h1, h2, h3, by simp, by simp, by simp⟩
        | done g => rw [hx] at hs; simp [step] at hs
        | ub => exact absurd hx a1
      refine ⟨key.1, key.2.1, key.2.2.1, fun t' ht' => ?_⟩
      simp only
      by_cases he : t' = t
      · subst he; rw [if_pos rfl]; exact key.2.2.2
      · rw [if_neg he]; exact h4 t' ht'
  · exact h

theorem quiet_run {c n seed : ℕ} {k : ℕ → ℕ} (hk : ∀ t < n, k t < c) : ∀ (σ : List ℕ) {s : Sys}, Quiet c n seed s → Quiet c n seed (runSched n k s σ)
  | [], _, h => h
  | t :: σ, _, h => quiet_run hk σ (quiet_pick hk h t)

/-- **C182 (safe once the table is long enough).** If a call before the threads start has asked for the largest number that any of them will, every schedule is safe: no freed table is read; each thread gets the generator of its number; and once each has
had enough turns all have theirs. -/
theorem C182_warm (seed c n : ℕ) (k : ℕ → ℕ) (hk : ∀ t < n, k t < c) (σ : List ℕ) (t : ℕ) (ht : t < n) :
    (runSched n k (warm seed c) σ).pc t ≠ .ub ∧ ∀ g, (runSched n k (warm seed c) σ).pc t = .done g → g = seed + k t + 1 := by
  have hq : Quiet c n seed (warm seed c) := ⟨rfl, rfl, rfl, fun t _ => ⟨by simp [warm], by simp [warm], by simp [warm]⟩⟩
  refine ⟨((quiet_run hk σ hq).2.2.2 t ht).1, fun g hg => ?_⟩
  obtain ⟨f, -, -, -, hp⟩ := run_ok σ (warm_ok seed c n k)
  have := hp t ht
  rw [hg] at this
  exact this.2

theorem C182_warm_ends (seed c n : ℕ) (k : ℕ → ℕ) (hk : ∀ t < n, k t < c) (blocks : List (List ℕ)) (hb : ∀ b ∈ blocks, ∀ t < n, t ∈ b)
    (hlen : ((List.range n).map fun t => k t + 8).sum ≤ blocks.length) (t : ℕ) (ht : t < n) :
    (runSched n k (warm seed c) blocks.flatten).pc t = .done (seed + k t + 1) := by
  have h := ends_of_ok blocks (warm_ok seed c n k) hb (by simpa [work, warm, rank] using hlen) t ht
  obtain ⟨h1, h2⟩ := C182_warm seed c n k hk blocks.flatten t ht
  rcases h with h | ⟨g, h⟩
  · exact absurd h h1
  · rw [h, h2 g h]

example : (runSched 2 id (warm 7 2) (List.replicate 17 [1, 0]).flatten).pc 1 = .done 9 := by
  have := C182_warm_ends 7 2 2 id (fun t ht => ht) (List.replicate 17 [1, 0]) (by
    intro b hb t ht
    obtain rfl := List.eq_of_mem_replicate hb
    have : t = 0 ∨ t = 1 := by omega
    rcases this with rfl | rfl <;> simp) (by simp [List.range_succ]) 1 (by omega)
  simpa using this

/-- **C182 (from the start: refuted).** With no generator made before, one thread may have read the pointer to the table when another makes the table longer, and reads what has been freed. -/
theorem C182_cold_refuted (seed : ℕ) : (runSched 2 id (cold seed) [0, 0, 0, 0, 0, 0, 1, 1, 0]).pc 0 = .ub := by
  simp [runSched, pick, step, cold, fillStep, Mem.grow, Mem.table, Mem.put, Mem.release, derefStep]

end Apop.RngPar
