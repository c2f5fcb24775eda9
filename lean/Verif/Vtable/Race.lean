import Mathlib.Algebra.BigOperators.Group.Finset.Basic
import Mathlib.Algebra.Order.BigOperators.Group.Finset
import Mathlib.Tactic.Linarith

/-! # C205: threads and the table of functions

Any number of threads, each calling `apop_vtable_add` or `apop_vtable_get` (apop_vtables.c:69-118) once on one table that is already there, under any schedule, with memory sequentially consistent. What is done inside the table's lock without a write is one step. `realloc` always moves the block; a block that was freed is gone. Making new tables is not modelled, nor is `apop_vtable_drop`. -/

namespace Apop.VtRace
variable {φ : Type}

/-! ## The model -/

/-- What a thread has to do. -/
inductive Job (φ : Type) where
  | add (key : ℕ) (fn : φ)
  | get (key : ℕ)

/-- The table, apop_vtables.c:14-28: the block `v->elmts` points to, `v->elmt_ct`, the mutex; the memory (`none`: not allocated, or freed; an element that is `none`: not written), the next block to be allocated; and, as the history, the elements inserted, in order. -/
structure St (φ : Type) where
  cur : ℕ
  ct : ℕ
  mem : ℕ → Option (List (Option (ℕ × φ)))
  next : ℕ
  lock : Option ℕ
  log : List (ℕ × φ)

/-- Where a thread is: before `lock`; at the loop; at the `realloc`; before `v->elmts = `; before the write of the element; at the last `unlock`; at the `unlock` before `return v->elmts[i].fn`; at the read of `v->elmts` there; at the read of the element in the block; past the return; or having read freed or unwritten memory. -/
inductive Pc (φ : Type) where
  | start
  | scan
  | grow
  | assign (b : ℕ)
  | write
  | leave
  | leaveAt (i : ℕ)
  | ptr (i : ℕ)
  | deref (b i : ℕ)
  | done (r : Option φ)
  | crash

/-- The loop over the first elements, apop_vtables.c:97, 114-115: the place of the key; the outer `none` is a read of what is not there. -/
def scanL (key : ℕ) : List (Option (ℕ × φ)) → ℕ → ℕ → Option (Option ℕ)
  | _, _, 0 => some none
  | [], _, _ + 1 => none
  | none :: _, _, _ + 1 => none
  | some e :: l, i, n + 1 => if e.1 = key then some (some i) else scanL key l (i + 1) n

/-- The loop on the block the table points to. -/
def scanTab (key : ℕ) (s : St φ) : Option (Option ℕ) :=
  match s.mem s.cur with
  | none => none
  | some l => scanL key l 0 s.ct

/-- After the loop of `apop_vtable_add`, apop_vtables.c:97. -/
def afterAdd : Option (Option ℕ) → Pc φ
  | none => .crash
  | some (some _) => .leave
  | some none => .grow

/-- After the loop of `apop_vtable_get`, apop_vtables.c:114-117. -/
def afterGet : Option (Option ℕ) → Pc φ
  | none => .crash
  | some (some i) => .leaveAt i
  | some none => .leave

/-- The loop's step. -/
def scanStep (s : St φ) : Job φ → Pc φ
  | .add k _ => afterAdd (scanTab k s)
  | .get k => afterGet (scanTab k s)

/-- `realloc(v->elmts, (++(v->elmt_ct))* ..)`, apop_vtables.c:100: the elements are moved, the new one is not written. -/
def growStep (s : St φ) : St φ × Pc φ :=
  match s.mem s.cur with
  | none => (s, .crash)
  | some l => ({ s with ct := s.ct + 1, mem := fun b => if b = s.cur then none else if b = s.next then some (l ++ [none]) else s.mem b, next := s.next + 1 }, .assign s.next)

/-- `v->elmts[v->elmt_ct-1] = ..`, apop_vtables.c:101. -/
def writeStep (s : St φ) (k : ℕ) (f : φ) : St φ × Pc φ :=
  match s.mem s.cur with
  | none => (s, .crash)
  | some l => if s.ct - 1 < l.length then ({ s with mem := fun b => if b = s.cur then some (l.set (s.ct - 1) (some (k, f))) else s.mem b, log := s.log ++ [(k, f)] }, .leave) else (s, .crash)

/-- `.fn` of the element in the block read. -/
def derefStep (s : St φ) (b i : ℕ) : Pc φ :=
  match s.mem b with
  | none => .crash
  | some l => match l[i]? with
    | some (some e) => .done (some e.2)
    | _ => .crash

/-- The write's step; only `apop_vtable_add` gets there. -/
def writeJob (s : St φ) : Job φ → St φ × Pc φ
  | .add k f => writeStep s k f
  | .get _ => (s, .crash)

/-- One step of thread `t`; `none` if it has to wait or has ended. -/
def step (j : Job φ) (t : ℕ) (s : St φ) : Pc φ → Option (St φ × Pc φ)
  | .start => if s.lock = none then some ({ s with lock := some t }, .scan) else none
  | .scan => some (s, scanStep s j)
  | .grow => some (growStep s)
  | .assign b => some ({ s with cur := b }, .write)
  | .write => some (writeJob s j)
  | .leave => some ({ s with lock := none }, .done none)
  | .leaveAt i => some ({ s with lock := none }, .ptr i)
  | .ptr i => some (s, .deref s.cur i)
  | .deref b i => some (s, derefStep s b i)
  | .done _ => none
  | .crash => none

/-- The threads together. -/
structure Cfg (φ : Type) where
  st : St φ
  pc : ℕ → Pc φ

/-- Thread `t` makes its step. -/
def Cfg.Next (job : ℕ → Job φ) (t : ℕ) (a b : Cfg φ) : Prop := ∃ r, step (job t) t a.st (a.pc t) = some r ∧ b.st = r.1 ∧ b.pc = fun u => if u = t then r.2 else a.pc u

/-- Runs of `n` threads: `Run job n k a b` says that `k` steps lead from `a` to `b`. -/
inductive Run (job : ℕ → Job φ) (n : ℕ) : ℕ → Cfg φ → Cfg φ → Prop
  | nil (a) : Run job n 0 a a
  | cons (k a b c t) (ht : t < n) (h : Run job n k a b) (hs : Cfg.Next job t b c) : Run job n (k + 1) a c

/-- A table with the given elements, all threads at the start. -/
def init (L : List (ℕ × φ)) : Cfg φ := ⟨⟨0, L.length, fun b => if b = 0 then some (L.map some) else none, 1, none, L⟩, fun _ => .start⟩

/-! ## Specification -/

/-- No thread is between its `unlock` and its read of the element while another has its block moved and not yet noted. -/
def Calm (a : Cfg φ) : Prop := ∀ t u b, a.pc t = .assign b → (∀ i, a.pc u ≠ .ptr i) ∧ ∀ c i, a.pc u ≠ .deref c i

/-- Runs through calm states only. -/
inductive CalmRun (job : ℕ → Job φ) (n : ℕ) : ℕ → Cfg φ → Cfg φ → Prop
  | nil (a) : CalmRun job n 0 a a
  | cons (k a b c t) (ht : t < n) (h : CalmRun job n k a b) (hs : Cfg.Next job t b c) (hc : Calm c) : CalmRun job n (k + 1) a c

/-- The table's memory is exactly the elements of a list, in order, all written. -/
def Holds (s : St φ) (L : List (ℕ × φ)) : Prop := s.mem s.cur = some (L.map some) ∧ s.ct = L.length

/-- No key twice. -/
def Uniq (L : List (ℕ × φ)) : Prop := (L.map Prod.fst).Nodup

/-! ## Invariants -/

/-- Inside the lock. -/
def Pc.Inside : Pc φ → Prop
  | .scan | .grow | .assign _ | .write | .leave | .leaveAt _ => True
  | _ => False

/-- Where jobs can be. -/
def JobOk (j : Job φ) (p : Pc φ) : Prop :=
  match j, p with
  | .add _ _, .leaveAt _ | .add _ _, .ptr _ | .add _ _, .deref _ _ => False
  | .get _, .grow | .get _, .assign _ | .get _, .write => False
  | _, _ => True

/-- What each thread knows of the elements inserted. -/
def Knows (L0 log : List (ℕ × φ)) (cur : ℕ) (j : Job φ) (p : Pc φ) : Prop :=
  match j, p with
  | .add k _, .grow | .add k _, .assign _ | .add k _, .write => k ∉ log.map Prod.fst
  | .add k _, .leave | .add k _, .done _ => k ∈ log.map Prod.fst
  | .get k, .leave | .get k, .done none => k ∉ L0.map Prod.fst
  | .get k, .leaveAt i | .get k, .ptr i => ∃ f, log[i]? = some (k, f)
  | .get k, .deref b i => b = cur ∧ ∃ f, log[i]? = some (k, f)
  | .get k, .done (some f) => (k, f) ∈ log
  | _, .crash => False
  | _, _ => True

structure Inv (job : ℕ → Job φ) (n : ℕ) (L0 : List (ℕ × φ)) (a : Cfg φ) : Prop where
  lock : ∀ t, (a.pc t).Inside ↔ a.st.lock = some t
  who : ∀ t, a.st.lock = some t → t < n
  jobs : ∀ t, JobOk (job t) (a.pc t)
  knows : ∀ t, Knows L0 a.st.log a.st.cur (job t) (a.pc t)
  quiet : (∀ t, a.pc t ≠ .write ∧ ∀ b, a.pc t ≠ .assign b) → Holds a.st a.st.log
  assign : ∀ t b, a.pc t = .assign b → a.st.mem b = some (a.st.log.map some ++ [none]) ∧ a.st.ct = a.st.log.length + 1
  write : ∀ t, a.pc t = .write → a.st.mem a.st.cur = some (a.st.log.map some ++ [none]) ∧ a.st.ct = a.st.log.length + 1
  fresh : a.st.cur < a.st.next ∧ ∀ t b, a.pc t = .assign b → b < a.st.next
  uniq : Uniq a.st.log
  pre : L0 <+: a.st.log
  src : ∀ e ∈ a.st.log, e ∈ L0 ∨ ∃ t < n, job t = .add e.1 e.2

theorem inv_init (job : ℕ → Job φ) (n : ℕ) (L : List (ℕ × φ)) (h : Uniq L) : Inv job n L (init L) := by
  constructor
  · simp [init, Pc.Inside]
  · simp [init]
  · intro t; simp only [init]; cases job t <;> trivial
  · intro t; simp only [init]; cases job t <;> trivial
  · intro _; simp [init, Holds]
  · simp [init]
  · simp [init]
  · simp [init]
  · exact h
  · simp [init]
  · intro e he; exact Or.inl he

theorem scanL_eq (key : ℕ) : ∀ (L : List (ℕ × φ)) (i : ℕ), (scanL key (L.map some) i L.length = some none ∧ key ∉ L.map Prod.fst) ∨ ∃ j f, scanL key (L.map some) i L.length = some (some (i + j)) ∧ L[j]? = some (key, f)
  | [], i => Or.inl ⟨rfl, by simp⟩
  | e :: L, i => by
    by_cases h : e.1 = key
    · exact Or.inr ⟨0, e.2, by simp [scanL, h], by simp [← h]⟩
    · rcases scanL_eq key L (i + 1) with ⟨h1, h2⟩ | ⟨j, f, h1, h2⟩
      · refine Or.inl ⟨by simpa [scanL, h] using h1, by simp only [List.map_cons, List.mem_cons, not_or]; exact ⟨fun hk => h hk.symm, h2⟩⟩
      · exact Or.inr ⟨j + 1, f, by simp only [List.map_cons, List.length_cons, scanL, h, if_false]; rw [h1]; congr 2; omega, by simpa using h2⟩

theorem scanTab_eq (key : ℕ) (s : St φ) (L : List (ℕ × φ)) (h : Holds s L) : (scanTab key s = some none ∧ key ∉ L.map Prod.fst) ∨ ∃ j f, scanTab key s = some (some j) ∧ L[j]? = some (key, f) := by
  unfold scanTab
  rw [h.1, h.2]
  simpa using scanL_eq key L 0

theorem knows_log {L0 log : List (ℕ × φ)} {cur : ℕ} {j : Job φ} {p : Pc φ} (hp : ¬ p.Inside) (e : ℕ × φ) (h : Knows L0 log cur j p) : Knows L0 (log ++ [e]) cur j p := by
  have key : ∀ (i k : ℕ), (∃ f, log[i]? = some (k, f)) → ∃ f, (log ++ [e])[i]? = some (k, f) := by
    rintro i k ⟨f, hf⟩
    have : i < log.length := by
      by_contra hn
      rw [List.getElem?_eq_none (by omega)] at hf
      cases hf
    exact ⟨f, by rw [List.getElem?_append_left this]; exact hf⟩
  cases j with
  | add k f => cases p <;> simp_all [Knows, Pc.Inside]
  | get k =>
    cases p with
    | done r =>
      cases r with
      | none => simpa [Knows] using h
      | some f => simp only [Knows] at h ⊢; exact List.mem_append_left _ h
    | ptr i => simp only [Knows] at h ⊢; exact key i k h
    | deref b i => simp only [Knows] at h ⊢; exact ⟨h.1, key i k h.2⟩
    | _ => simp_all [Knows, Pc.Inside]

theorem knows_cur {L0 log : List (ℕ × φ)} {cur cur' : ℕ} {j : Job φ} {p : Pc φ} (hp : ∀ b i, p ≠ .deref b i) (h : Knows L0 log cur j p) : Knows L0 log cur' j p := by
  cases j with
  | add k f => cases p <;> simp_all [Knows]
  | get k =>
    cases p with
    | done r => cases r <;> simp_all [Knows]
    | _ => simp_all [Knows]

/-- The threads other than the one inside are not. -/
theorem Inv.alone {job : ℕ → Job φ} {n : ℕ} {L0 : List (ℕ × φ)} {a : Cfg φ} (h : Inv job n L0 a) {t u : ℕ} (ht : (a.pc t).Inside) (hu : u ≠ t) : ¬ (a.pc u).Inside := by
  intro hi
  have h1 := (h.lock t).1 ht
  rw [(h.lock u).1 hi] at h1
  exact hu (by simpa using h1)

/-- Unless someone grows the table, its memory is the elements inserted. -/
theorem Inv.holds {job : ℕ → Job φ} {n : ℕ} {L0 : List (ℕ × φ)} {a : Cfg φ} (h : Inv job n L0 a) {t : ℕ} (ht : (a.pc t).Inside) (h1 : a.pc t ≠ .write) (h2 : ∀ b, a.pc t ≠ .assign b) : Holds a.st a.st.log := by
  refine h.quiet fun u => ?_
  by_cases hu : u = t
  · subst hu; exact ⟨h1, h2⟩
  · have := h.alone ht hu
    constructor
    · intro he; rw [he] at this; exact this trivial
    · intro b he; rw [he] at this; exact this trivial

/-- A step that changes no shared state but perhaps the lock. -/
theorem inv_local {job : ℕ → Job φ} {n t : ℕ} {L0 : List (ℕ × φ)} {a : Cfg φ} (h : Inv job n L0 a) (p : Pc φ) (lk : Option ℕ)
    (hl : ∀ u, (if u = t then p.Inside else (a.pc u).Inside) ↔ lk = some u) (hw : ∀ u, lk = some u → u < n) (hj : JobOk (job t) p) (hk : Knows L0 a.st.log a.st.cur (job t) p)
    (hold : a.pc t ≠ .write ∧ ∀ b, a.pc t ≠ .assign b) (hnew : p ≠ .write ∧ ∀ b, p ≠ .assign b) :
    Inv job n L0 ⟨{ a.st with lock := lk }, fun u => if u = t then p else a.pc u⟩ := by
  constructor
  · intro u; rw [← hl u]; by_cases hu : u = t <;> simp [hu]
  · exact hw
  · intro u; by_cases hu : u = t
    · subst hu; simpa using hj
    · simpa [hu] using h.jobs u
  · intro u; by_cases hu : u = t
    · subst hu; simpa using hk
    · simpa [hu] using h.knows u
  · intro hq
    refine h.quiet fun u => ?_
    by_cases hu : u = t
    · subst hu; exact hold
    · simpa [hu] using hq u
  · intro u b hu
    by_cases hut : u = t
    · subst hut; simp only [if_true] at hu; exact absurd hu (hnew.2 b)
    · simp only [hut, if_false] at hu; exact h.assign u b hu
  · intro u hu
    by_cases hut : u = t
    · subst hut; simp only [if_true] at hu; exact absurd hu hnew.1
    · simp only [hut, if_false] at hu; exact h.write u hu
  · refine ⟨h.fresh.1, fun u b hu => ?_⟩
    by_cases hut : u = t
    · subst hut; simp only [if_true] at hu; exact absurd hu (hnew.2 b)
    · simp only [hut, if_false] at hu; exact h.fresh.2 u b hu
  · exact h.uniq
  · exact h.pre
  · exact h.src

theorem Inv.unlocked {job : ℕ → Job φ} {n t : ℕ} {L0 : List (ℕ × φ)} {a : Cfg φ} (h : Inv job n L0 a) (ht : (a.pc t).Inside) (p : Pc φ) (hp : ¬ p.Inside) (u : ℕ) : (if u = t then p.Inside else (a.pc u).Inside) ↔ (none : Option ℕ) = some u := by
  by_cases hu : u = t
  · simp [hu, hp]
  · simpa [hu] using h.alone ht hu

theorem Inv.stays {job : ℕ → Job φ} {n t : ℕ} {L0 : List (ℕ × φ)} {a : Cfg φ} (h : Inv job n L0 a) (p : Pc φ) (hp : p.Inside ↔ (a.pc t).Inside) (u : ℕ) : (if u = t then p.Inside else (a.pc u).Inside) ↔ a.st.lock = some u := by
  by_cases hu : u = t
  · subst hu; simpa [hp] using h.lock u
  · simpa [hu] using h.lock u

theorem inv_next {job : ℕ → Job φ} {n t : ℕ} {L0 : List (ℕ × φ)} {a b : Cfg φ} (ht : t < n) (h : Inv job n L0 a) (hca : Calm a) (hs : Cfg.Next job t a b) (hcb : Calm b) : Inv job n L0 b := by
  obtain ⟨⟨st, r⟩, e, e1, e2⟩ := hs
  obtain ⟨bs, bp⟩ := b
  simp only at e1 e2
  subst e1 e2
  have hjob := h.jobs t
  have hkn := h.knows t
  cases hp : a.pc t with
  | start =>
    rw [hp] at e hjob hkn
    simp only [step] at e
    split at e
    · rename_i hl
      simp only [Option.some.injEq, Prod.mk.injEq] at e
      obtain ⟨rfl, rfl⟩ := e
      refine inv_local h .scan (some t) ?_ ?_ ?_ ?_ (by simp [hp]) (by simp)
      · intro u
        by_cases hu : u = t
        · simp [hu, Pc.Inside]
        · have h2 := h.lock u
          rw [hl] at h2
          simp only [hu, if_false, Option.some.injEq]
          constructor
          · intro hi; exact absurd (h2.1 hi) (by simp)
          · intro he; exact absurd he.symm hu
      · intro u hu; cases hu; exact ht
      · cases job t <;> trivial
      · cases job t <;> trivial
    · cases e
  | scan =>
    have hin : (a.pc t).Inside := by rw [hp]; trivial
    have hh := h.holds hin (by simp [hp]) (by simp [hp])
    rw [hp] at e
    simp only [step, Option.some.injEq, Prod.mk.injEq] at e
    obtain ⟨rfl, rfl⟩ := e
    obtain ⟨L1, hL1⟩ := h.pre
    cases hj : job t with
    | add k f =>
      rcases scanTab_eq k a.st _ hh with ⟨h1, h2⟩ | ⟨i, f', h1, h2⟩
      · refine inv_local h _ a.st.lock (h.stays _ ?_) h.who ?_ ?_ (by simp [hp]) ?_ <;> simp only [scanStep, h1, afterAdd, hj]
        · rw [hp]; simp [Pc.Inside]
        · trivial
        · exact h2
        · simp
      · refine inv_local h _ a.st.lock (h.stays _ ?_) h.who ?_ ?_ (by simp [hp]) ?_ <;> simp only [scanStep, h1, afterAdd, hj]
        · rw [hp]; simp [Pc.Inside]
        · trivial
        · exact List.mem_map.2 ⟨_, List.mem_of_getElem? h2, rfl⟩
        · simp
    | get k =>
      rcases scanTab_eq k a.st _ hh with ⟨h1, h2⟩ | ⟨i, f', h1, h2⟩
      · refine inv_local h _ a.st.lock (h.stays _ ?_) h.who ?_ ?_ (by simp [hp]) ?_ <;> simp only [scanStep, h1, afterGet, hj]
        · rw [hp]; simp [Pc.Inside]
        · trivial
        · show k ∉ L0.map Prod.fst
          intro hk
          rw [← hL1, List.map_append] at h2
          exact h2 (List.mem_append_left _ hk)
        · simp
      · refine inv_local h _ a.st.lock (h.stays _ ?_) h.who ?_ ?_ (by simp [hp]) ?_ <;> simp only [scanStep, h1, afterGet, hj]
        · rw [hp]; simp [Pc.Inside]
        · trivial
        · exact ⟨f', h2⟩
        · simp
  | grow =>
    have hin : (a.pc t).Inside := by rw [hp]; trivial
    have hh := h.holds hin (by simp [hp]) (by simp [hp])
    rw [hp] at e hjob hkn
    simp only [step, growStep, hh.1, Option.some.injEq, Prod.mk.injEq] at e
    obtain ⟨rfl, rfl⟩ := e
    have hcur : a.st.next ≠ a.st.cur := by have := h.fresh.1; omega
    have hother : ∀ u, u ≠ t → a.pc u ≠ .write ∧ ∀ b, a.pc u ≠ .assign b := by
      intro u hu
      have := h.alone hin hu
      exact ⟨fun he => by rw [he] at this; exact this trivial, fun b he => by rw [he] at this; exact this trivial⟩
    constructor
    · intro u; by_cases hu : u = t
      · subst hu; simpa [Pc.Inside, hp] using h.lock u
      · simpa [hu] using h.lock u
    · exact h.who
    · intro u; by_cases hu : u = t
      · subst hu
        cases hj : job u with
        | add k f => simp [JobOk]
        | get k => rw [hj] at hjob; exact absurd hjob (by simp [JobOk])
      · simpa [hu] using h.jobs u
    · intro u; by_cases hu : u = t
      · subst hu
        cases hj : job u with
        | add k f => rw [hj] at hkn; simpa [Knows] using hkn
        | get k => rw [hj] at hjob; exact absurd hjob (by simp [JobOk])
      · simpa [hu] using h.knows u
    · intro hq; exact absurd (by simp) ((hq t).2 a.st.next)
    · intro u b hu
      by_cases hut : u = t
      · simp only [hut, if_true, Pc.assign.injEq] at hu
        subst hu
        simp [hcur, hh.2]
      · simp only [hut, if_false] at hu
        exact absurd hu ((hother u hut).2 b)
    · intro u hu
      by_cases hut : u = t
      · simp [hut] at hu
      · simp only [hut, if_false] at hu
        exact absurd hu (hother u hut).1
    · refine ⟨by have := h.fresh.1; simp only; omega, fun u b hu => ?_⟩
      by_cases hut : u = t
      · simp only [hut, if_true, Pc.assign.injEq] at hu
        subst hu
        simp
      · simp only [hut, if_false] at hu
        exact absurd hu ((hother u hut).2 b)
    · exact h.uniq
    · exact h.pre
    · exact h.src
  | assign blk =>
    have hin : (a.pc t).Inside := by rw [hp]; trivial
    have hA := h.assign t blk hp
    have hF := h.fresh.2 t blk hp
    rw [hp] at e hjob hkn
    simp only [step, Option.some.injEq, Prod.mk.injEq] at e
    obtain ⟨rfl, rfl⟩ := e
    have hother : ∀ u, u ≠ t → a.pc u ≠ .write ∧ ∀ b, a.pc u ≠ .assign b := by
      intro u hu
      have := h.alone hin hu
      exact ⟨fun he => by rw [he] at this; exact this trivial, fun b he => by rw [he] at this; exact this trivial⟩
    constructor
    · intro u; by_cases hu : u = t
      · subst hu; simpa [Pc.Inside, hp] using h.lock u
      · simpa [hu] using h.lock u
    · exact h.who
    · intro u; by_cases hu : u = t
      · subst hu
        cases hj : job u with
        | add k f => simp [JobOk]
        | get k => rw [hj] at hjob; exact absurd hjob (by simp [JobOk])
      · simpa [hu] using h.jobs u
    · intro u; by_cases hu : u = t
      · subst hu
        cases hj : job u with
        | add k f => rw [hj] at hkn; simpa [Knows] using hkn
        | get k => rw [hj] at hjob; exact absurd hjob (by simp [JobOk])
      · simpa [hu] using knows_cur (cur' := blk) ((hca t u blk hp).2) (h.knows u)
    · intro hq; exact absurd (by simp) (hq t).1
    · intro u b hu
      by_cases hut : u = t
      · simp [hut] at hu
      · simp only [hut, if_false] at hu
        exact absurd hu ((hother u hut).2 b)
    · intro u hu
      exact hA
    · refine ⟨hF, fun u b hu => ?_⟩
      by_cases hut : u = t
      · simp [hut] at hu
      · simp only [hut, if_false] at hu
        exact absurd hu ((hother u hut).2 b)
    · exact h.uniq
    · exact h.pre
    · exact h.src
  | write =>
    have hin : (a.pc t).Inside := by rw [hp]; trivial
    have hW := h.write t hp
    rw [hp] at e hjob hkn
    have hother : ∀ u, u ≠ t → a.pc u ≠ .write ∧ ∀ b, a.pc u ≠ .assign b := by
      intro u hu
      have := h.alone hin hu
      exact ⟨fun he => by rw [he] at this; exact this trivial, fun b he => by rw [he] at this; exact this trivial⟩
    cases hj : job t with
    | get k => rw [hj] at hjob; exact absurd hjob (by simp [JobOk])
    | add k f =>
      rw [hj] at hkn
      simp only [Knows] at hkn
      have hlt : a.st.ct - 1 < (a.st.log.map some ++ [none]).length := by rw [hW.2]; simp
      rw [hj] at e
      simp only [step, writeJob, writeStep, hW.1, if_pos hlt, Option.some.injEq, Prod.mk.injEq] at e
      obtain ⟨rfl, rfl⟩ := e
      constructor
      · intro u; by_cases hu : u = t
        · subst hu; simpa [Pc.Inside, hp] using h.lock u
        · simpa [hu] using h.lock u
      · exact h.who
      · intro u; by_cases hu : u = t
        · subst hu; simp [hj, JobOk]
        · simpa [hu] using h.jobs u
      · intro u; by_cases hu : u = t
        · subst hu; simp [hj, Knows]
        · simpa [hu] using knows_log (h.alone hin hu) (k, f) (h.knows u)
      · intro _
        refine ⟨?_, ?_⟩
        · simp only [if_true, hW.2, Nat.add_sub_cancel, Option.some.injEq]
          rw [List.set_append_right _ _ (by simp)]
          simp
        · simp [hW.2]
      · intro u b hu
        by_cases hut : u = t
        · simp [hut] at hu
        · simp only [hut, if_false] at hu
          exact absurd hu ((hother u hut).2 b)
      · intro u hu
        by_cases hut : u = t
        · simp [hut] at hu
        · simp only [hut, if_false] at hu
          exact absurd hu (hother u hut).1
      · refine ⟨h.fresh.1, fun u b hu => ?_⟩
        by_cases hut : u = t
        · simp [hut] at hu
        · simp only [hut, if_false] at hu
          exact absurd hu ((hother u hut).2 b)
      · have := h.uniq
        unfold Uniq at this ⊢
        rw [List.map_append, List.nodup_append]
        refine ⟨this, by simp, ?_⟩
        intro x hx y hy he
        simp only [List.map_cons, List.map_nil, List.mem_singleton] at hy
        subst hy
        exact hkn (he ▸ hx)
      · exact h.pre.trans (List.prefix_append _ _)
      · intro x hx
        rcases List.mem_append.1 hx with hx | hx
        · exact h.src x hx
        · simp only [List.mem_singleton] at hx
          subst hx
          exact Or.inr ⟨t, ht, hj⟩
  | leave =>
    have hin : (a.pc t).Inside := by rw [hp]; trivial
    rw [hp] at e hjob hkn
    simp only [step, Option.some.injEq, Prod.mk.injEq] at e
    obtain ⟨rfl, rfl⟩ := e
    refine inv_local h _ none (h.unlocked hin _ (by simp [Pc.Inside])) (by simp) ?_ ?_ (by simp [hp]) (by simp)
    · cases job t <;> trivial
    · cases hj : job t <;> rw [hj] at hkn <;> exact hkn
  | leaveAt i =>
    have hin : (a.pc t).Inside := by rw [hp]; trivial
    rw [hp] at e hjob hkn
    simp only [step, Option.some.injEq, Prod.mk.injEq] at e
    obtain ⟨rfl, rfl⟩ := e
    refine inv_local h _ none (h.unlocked hin _ (by simp [Pc.Inside])) (by simp) ?_ ?_ (by simp [hp]) (by simp)
    · cases hj : job t <;> rw [hj] at hjob <;> exact hjob
    · cases hj : job t with
      | add k f => trivial
      | get k => rw [hj] at hkn; exact hkn
  | ptr i =>
    rw [hp] at e hjob hkn
    simp only [step, Option.some.injEq, Prod.mk.injEq] at e
    obtain ⟨rfl, rfl⟩ := e
    refine inv_local h _ a.st.lock (h.stays _ (by rw [hp]; simp [Pc.Inside])) h.who ?_ ?_ (by simp [hp]) (by simp)
    · cases hj : job t <;> rw [hj] at hjob <;> exact hjob
    · cases hj : job t with
      | add k f => trivial
      | get k => rw [hj] at hkn; exact ⟨rfl, hkn⟩
  | deref blk i =>
    rw [hp] at e hjob hkn
    simp only [step, Option.some.injEq, Prod.mk.injEq] at e
    obtain ⟨rfl, rfl⟩ := e
    cases hj : job t with
    | add k f => rw [hj] at hjob; exact absurd hjob (by simp [JobOk])
    | get k =>
      rw [hj] at hkn
      obtain ⟨rfl, f, hf⟩ := hkn
      have hil : i < a.st.log.length := by
        by_contra hn
        rw [List.getElem?_eq_none (by omega)] at hf
        cases hf
      have hd : derefStep a.st a.st.cur i = .done (some f) := by
        by_cases hw : ∃ u, a.pc u = .write
        · obtain ⟨u, hu⟩ := hw
          have := (h.write u hu).1
          unfold derefStep
          rw [this]
          simp only
          rw [List.getElem?_append_left (by simpa using hil), List.getElem?_map, hf]
          rfl
        · have hh := h.quiet fun u => ⟨fun he => hw ⟨u, he⟩, fun b he => (hca u t b he).2 _ _ hp⟩
          unfold derefStep
          rw [hh.1]
          simp [List.getElem?_map, hf]
      rw [hd]
      refine inv_local h _ a.st.lock (h.stays _ (by rw [hp]; simp [Pc.Inside])) h.who ?_ ?_ (by simp [hp]) (by simp)
      · simp [hj, JobOk]
      · simp only [hj, Knows]; exact List.mem_of_getElem? hf
  | done r => rw [hp] at e; simp [step] at e
  | crash => rw [hp] at e; simp [step] at e

theorem calm_init (L : List (ℕ × φ)) : Calm (init L) := by
  intro t u b h; simp [init] at h

theorem inv_calmRun {job : ℕ → Job φ} {n k : ℕ} {L0 : List (ℕ × φ)} {a b : Cfg φ} (ha : Inv job n L0 a) (hc : Calm a) (h : CalmRun job n k a b) : Inv job n L0 b ∧ Calm b := by
  induction h with
  | nil => exact ⟨ha, hc⟩
  | cons k a b c t ht _ hs hc' ih => exact ⟨inv_next ht (ih ha hc).1 (ih ha hc).2 hs hc', hc'⟩

theorem jobOk_next {job : ℕ → Job φ} {t : ℕ} {a b : Cfg φ} (h : ∀ u, JobOk (job u) (a.pc u)) (hs : Cfg.Next job t a b) : ∀ u, JobOk (job u) (b.pc u) := by
  obtain ⟨⟨st, r⟩, e, e1, e2⟩ := hs
  intro u
  rw [e2]
  by_cases hu : u = t
  · subst hu
    simp only [if_true]
    have hj := h u
    cases hp : a.pc u <;> rw [hp] at e hj <;> simp only [step] at e
    · split at e <;> simp only [Option.some.injEq, Prod.mk.injEq, reduceCtorEq] at e
      rw [← e.2]; cases job u <;> trivial
    · simp only [Option.some.injEq, Prod.mk.injEq] at e
      rw [← e.2]
      cases hq : job u with
      | add k f =>
        simp only [scanStep]
        rcases scanTab k a.st with _ | _ | _ <;> trivial
      | get k =>
        simp only [scanStep]
        rcases scanTab k a.st with _ | _ | _ <;> trivial
    · simp only [growStep, Option.some.injEq] at e
      cases hq : job u with
      | add k f =>
        split at e <;> simp only [Prod.mk.injEq] at e <;> rw [← e.2] <;> trivial
      | get k => rw [hq] at hj; exact absurd hj (by simp [JobOk])
    · simp only [Option.some.injEq, Prod.mk.injEq] at e
      rw [← e.2]
      cases hq : job u with
      | add k f => trivial
      | get k => rw [hq] at hj; exact absurd hj (by simp [JobOk])
    · simp only [Option.some.injEq] at e
      cases hq : job u with
      | add k f =>
        rw [hq] at e
        simp only [writeJob, writeStep] at e
        split at e
        · simp only [Prod.mk.injEq] at e; rw [← e.2]; trivial
        · split at e <;> simp only [Prod.mk.injEq] at e <;> rw [← e.2] <;> trivial
      | get k => rw [hq] at hj; exact absurd hj (by simp [JobOk])
    · simp only [Option.some.injEq, Prod.mk.injEq] at e
      rw [← e.2]; cases job u <;> trivial
    · simp only [Option.some.injEq, Prod.mk.injEq] at e
      rw [← e.2]; cases hq : job u <;> rw [hq] at hj <;> exact hj
    · simp only [Option.some.injEq, Prod.mk.injEq] at e
      rw [← e.2]; cases hq : job u <;> rw [hq] at hj <;> exact hj
    · simp only [Option.some.injEq, Prod.mk.injEq] at e
      rw [← e.2]
      unfold derefStep
      split
      · cases job u <;> trivial
      · split <;> cases job u <;> trivial
    · cases e
    · cases e
  · simpa [hu] using h u

theorem jobOk_run {job : ℕ → Job φ} {n k : ℕ} {a b : Cfg φ} (ha : ∀ u, JobOk (job u) (a.pc u)) (h : Run job n k a b) : ∀ u, JobOk (job u) (b.pc u) := by
  induction h with
  | nil => exact ha
  | cons k a b c t _ _ hs ih => exact jobOk_next (ih ha) hs

theorem jobOk_init (job : ℕ → Job φ) (L : List (ℕ × φ)) : ∀ u, JobOk (job u) ((init L).pc u) := by
  intro u; simp only [init]; cases job u <;> trivial

/-- Runs whose threads are all of one kind are calm. -/
theorem calm_of_run {job : ℕ → Job φ} {n k : ℕ} {a b : Cfg φ} (ha : ∀ u, JobOk (job u) (a.pc u)) (hj : (∀ t, ∃ key, job t = .get key) ∨ ∀ t, ∃ key fn, job t = .add key fn) (h : Run job n k a b) : CalmRun job n k a b := by
  have calm : ∀ c : Cfg φ, (∀ u, JobOk (job u) (c.pc u)) → Calm c := by
    intro c hc t u blk hp
    rcases hj with hj | hj
    · obtain ⟨key, hk⟩ := hj t
      have := hc t
      rw [hk, hp] at this
      exact absurd this (by simp [JobOk])
    · obtain ⟨key, fn, hk⟩ := hj u
      have := hc u
      rw [hk] at this
      exact ⟨fun i he => by rw [he] at this; simp [JobOk] at this, fun c i he => by rw [he] at this; simp [JobOk] at this⟩
  induction h with
  | nil => exact .nil _
  | cons k a b c t ht hr hs ih => exact .cons k a b c t ht (ih ha) hs (calm c (jobOk_next (jobOk_run ha hr) hs))

/-! ## Termination -/

/-- The steps a thread may still make. -/
def rank : Pc φ → ℕ
  | .start => 6
  | .scan => 5
  | .grow => 4
  | .assign _ => 3
  | .write => 2
  | .leave => 1
  | .leaveAt _ => 3
  | .ptr _ => 2
  | .deref _ _ => 1
  | .done _ => 0
  | .crash => 0

/-- The steps all may still make. -/
def total (n : ℕ) (a : Cfg φ) : ℕ := ∑ t ∈ Finset.range n, rank (a.pc t)

theorem step_rank (j : Job φ) (t : ℕ) (s : St φ) (p : Pc φ) (r : St φ × Pc φ) (h : step j t s p = some r) : rank r.2 < rank p := by
  cases p <;> simp only [step] at h
  · split at h <;> simp only [Option.some.injEq, reduceCtorEq] at h
    rw [← h]; simp [rank]
  · simp only [Option.some.injEq] at h
    rw [← h]
    cases j with
    | add k f => simp only [scanStep]; rcases scanTab k s with _ | _ | _ <;> simp [afterAdd, rank]
    | get k => simp only [scanStep]; rcases scanTab k s with _ | _ | _ <;> simp [afterGet, rank]
  · simp only [Option.some.injEq] at h
    rw [← h]; unfold growStep; split <;> simp [rank]
  · simp only [Option.some.injEq] at h
    rw [← h]; simp [rank]
  · simp only [Option.some.injEq] at h
    rw [← h]
    cases j with
    | add k f =>
      simp only [writeJob, writeStep]
      split
      · simp [rank]
      · split <;> simp [rank]
    | get k => simp [writeJob, rank]
  · simp only [Option.some.injEq] at h
    rw [← h]; simp [rank]
  · simp only [Option.some.injEq] at h
    rw [← h]; simp [rank]
  · simp only [Option.some.injEq] at h
    rw [← h]; simp [rank]
  · simp only [Option.some.injEq] at h
    rw [← h]; unfold derefStep
    split
    · simp [rank]
    · split <;> simp [rank]
  · cases h
  · cases h

theorem total_next {job : ℕ → Job φ} {n t : ℕ} {a b : Cfg φ} (ht : t < n) (hs : Cfg.Next job t a b) : total n b < total n a := by
  obtain ⟨r, e, _, e2⟩ := hs
  refine Finset.sum_lt_sum (fun u _ => ?_) ⟨t, Finset.mem_range.2 ht, ?_⟩
  · rw [e2]
    by_cases hu : u = t
    · subst hu; simpa using (step_rank _ _ _ _ _ e).le
    · simp [hu]
  · rw [e2]; simpa using step_rank _ _ _ _ _ e

theorem total_run {job : ℕ → Job φ} {n k : ℕ} {a b : Cfg φ} (h : Run job n k a b) : k + total n b ≤ total n a := by
  induction h with
  | nil => simp
  | cons k a b c t ht hr hs ih =>
    have := total_next ht hs
    omega

theorem CalmRun.run {job : ℕ → Job φ} {n k : ℕ} {a b : Cfg φ} (h : CalmRun job n k a b) : Run job n k a b := by
  induction h with
  | nil => exact .nil _
  | cons k a b c t ht _ hs _ ih => exact .cons _ _ _ _ t ht ih hs

/-! ## The claims -/

/-- **C205 (calm runs).** Under every schedule through calm states, of any number of threads adding to and getting from a table: no thread reads freed or unwritten memory; when no thread is inside the lock the table's memory is exactly the elements there before followed by those inserted, in order; no key is there twice, so the first registration under a key stays; every new element is from a thread's call; a finished `add` has its key in the table; a finished `get` returned an element of the table under its key, or NULL, and NULL only for a key that was not there at the start. -/
theorem C205_calm (job : ℕ → Job φ) (n k : ℕ) (L : List (ℕ × φ)) (hL : Uniq L) (b : Cfg φ) (h : CalmRun job n k (init L) b) :
    (∀ t, b.pc t ≠ .crash) ∧ (b.st.lock = none → Holds b.st b.st.log) ∧ L <+: b.st.log ∧ Uniq b.st.log ∧ (∀ e ∈ b.st.log, e ∈ L ∨ ∃ t < n, job t = .add e.1 e.2) ∧
      (∀ t key fn r, job t = .add key fn → b.pc t = .done r → key ∈ b.st.log.map Prod.fst) ∧
      (∀ t key fn, job t = .get key → b.pc t = .done (some fn) → (key, fn) ∈ b.st.log) ∧ ∀ t key, job t = .get key → b.pc t = .done none → key ∉ L.map Prod.fst := by
  obtain ⟨i, _⟩ := inv_calmRun (inv_init job n L hL) (calm_init L) h
  refine ⟨?_, ?_, i.pre, i.uniq, i.src, ?_, ?_, ?_⟩
  · intro t hc
    have := i.knows t
    rw [hc] at this
    cases hj : job t <;> rw [hj] at this <;> exact this
  · intro hl
    refine i.quiet fun t => ⟨fun he => ?_, fun blk he => ?_⟩
    · have := (i.lock t).1 (by rw [he]; trivial)
      rw [hl] at this; cases this
    · have := (i.lock t).1 (by rw [he]; trivial)
      rw [hl] at this; cases this
  · intro t key fn r hj hp
    have := i.knows t
    rw [hj, hp] at this
    exact this
  · intro t key fn hj hp
    have := i.knows t
    rw [hj, hp] at this
    exact this
  · intro t key hj hp
    have := i.knows t
    rw [hj, hp] at this
    exact this

/-- **C205 (registered functions).** In calm runs a finished `get` of a key that was there before the threads began has returned its function. -/
theorem C205_registered (job : ℕ → Job φ) (n k : ℕ) (L : List (ℕ × φ)) (hL : Uniq L) (b : Cfg φ) (h : CalmRun job n k (init L) b) (t key : ℕ) (fn : φ) (hf : (key, fn) ∈ L) (hj : job t = .get key) (r : Option φ) (hd : b.pc t = .done r) : r = some fn := by
  obtain ⟨_, _, h3, h4, _, _, h7, h8⟩ := C205_calm job n k L hL b h
  cases r with
  | none => exact absurd (List.mem_map.2 ⟨_, hf, rfl⟩) (h8 t key hj hd)
  | some f' =>
    have h1 := h7 t key f' hj hd
    have h2 := h3.subset hf
    have := List.inj_on_of_nodup_map h4 h1 h2 rfl
    simp only [Prod.mk.injEq, true_and] at this
    rw [this]

/-- **C205 (only gets, or only adds).** Threads that all look up, or all register, are always in calm states, whatever the schedule. -/
theorem C205_one_kind (job : ℕ → Job φ) (n k : ℕ) (L : List (ℕ × φ)) (hj : (∀ t, ∃ key, job t = .get key) ∨ ∀ t, ∃ key fn, job t = .add key fn) (b : Cfg φ) (h : Run job n k (init L) b) : CalmRun job n k (init L) b :=
  calm_of_run (jobOk_init job L) hj h

/-- **C205 (ending).** Every run of `n` threads makes at most 6n steps, and in calm runs, as long as not all threads have ended, one of them can make a step: no deadlock. -/
theorem C205_ends (job : ℕ → Job φ) (n k : ℕ) (L : List (ℕ × φ)) (hL : Uniq L) (b : Cfg φ) :
    (Run job n k (init L) b → k ≤ 6 * n) ∧ (CalmRun job n k (init L) b → (∃ t < n, ∀ r, b.pc t ≠ .done r) → ∃ t < n, ∃ c, Cfg.Next job t b c) := by
  constructor
  · intro h
    have h1 := total_run h
    have h2 : total n (init L) = 6 * n := by simp [total, init, rank, mul_comm]
    omega
  · rintro h ⟨t, ht, hd⟩
    obtain ⟨i, _⟩ := inv_calmRun (inv_init job n L hL) (calm_init L) h
    cases hl : b.st.lock with
    | some u =>
      have hin := (i.lock u).2 hl
      refine ⟨u, i.who u hl, ?_⟩
      cases hp : b.pc u <;> rw [hp] at hin <;> simp only [Pc.Inside] at hin
      all_goals exact ⟨⟨_, _⟩, _, by rw [hp]; rfl, rfl, rfl⟩
    | none =>
      refine ⟨t, ht, ?_⟩
      cases hp : b.pc t with
      | done c => exact absurd hp (hd c)
      | crash => exact absurd hp ((C205_calm job n k L hL b h).1 t)
      | start => exact ⟨⟨_, _⟩, _, by rw [hp, step, if_pos hl], rfl, rfl⟩
      | _ => exact ⟨⟨_, _⟩, _, by rw [hp]; rfl, rfl, rfl⟩

/-- Follow a schedule. -/
def follow (job : ℕ → Job φ) : List ℕ → Cfg φ → Option (Cfg φ)
  | [], a => some a
  | t :: ts, a => match step (job t) t a.st (a.pc t) with
    | none => none
    | some r => follow job ts ⟨r.1, fun u => if u = t then r.2 else a.pc u⟩

theorem follow_run {job : ℕ → Job φ} {n : ℕ} : ∀ (ts : List ℕ) {k : ℕ} {a0 a b : Cfg φ}, (∀ t ∈ ts, t < n) → Run job n k a0 a → follow job ts a = some b → Run job n (k + ts.length) a0 b
  | [], k, a0, a, b, _, hr, h => by simp only [follow, Option.some.injEq] at h; subst h; exact hr
  | t :: ts, k, a0, a, b, ht, hr, h => by
    rw [follow] at h
    cases e : step (job t) t a.st (a.pc t) with
    | none => rw [e] at h; simp at h
    | some r =>
      rw [e] at h
      have := follow_run ts (fun u hu => ht u (List.mem_cons_of_mem _ hu)) (.cons k a0 a _ t (ht t (by simp)) hr ⟨r, e, rfl, rfl⟩) h
      rw [List.length_cons, show k + (ts.length + 1) = k + 1 + ts.length by omega]
      exact this

/-- A thread that registers under key 8, and one that looks key 7 up. -/
def jobEx (t : ℕ) : Job ℕ := if t = 0 then .add 8 80 else .get 7

/-- **C205 (refuted: a get beside an add).** `apop_vtable_get` reads the element after it has given up the lock: with another thread registering a function under a different key, the block it reads may have been freed by then. -/
theorem C205_race_refuted : ∃ k b, Run jobEx 2 k (init [(7, 70)]) b ∧ b.pc 1 = .crash := by
  have h : ∃ b, follow jobEx [1, 1, 1, 1, 0, 0, 0, 1] (init [(7, 70)]) = some b ∧ b.pc 1 = .crash := ⟨_, rfl, rfl⟩
  obtain ⟨b, h1, h2⟩ := h
  exact ⟨_, b, follow_run _ (by decide) (.nil _) h1, h2⟩

/-- Non-vacuity: two threads registering different functions under one key; the first to get the lock wins. -/
example : ∃ k b, CalmRun (fun t => Job.add 8 (80 + t)) 2 k (init [(7, 70)]) b ∧ b.pc 0 = .done none ∧ b.pc 1 = .done none ∧ b.st.log = [(7, 70), (8, 81)] := by
  have h : ∃ b, follow (fun t => Job.add 8 (80 + t)) [1, 1, 1, 1, 1, 1, 0, 0, 0] (init [(7, 70)]) = some b ∧ b.pc 0 = .done none ∧ b.pc 1 = .done none ∧ b.st.log = [(7, 70), (8, 81)] := ⟨_, rfl, rfl, rfl, rfl⟩
  obtain ⟨b, h1, h2⟩ := h
  exact ⟨_, b, C205_one_kind _ _ _ _ (Or.inr fun t => ⟨_, _, rfl⟩) b (follow_run _ (by decide) (.nil _) h1), h2⟩

/-- Non-vacuity: the get of a registered key ends with its function, with both calls in turn. -/
example : ∃ k b, Run jobEx 2 k (init [(7, 70)]) b ∧ b.pc 1 = .done (some 70) ∧ b.pc 0 = .done none ∧ b.st.log = [(7, 70), (8, 80)] := by
  have h : ∃ b, follow jobEx [0, 0, 0, 0, 0, 0, 1, 1, 1, 1, 1] (init [(7, 70)]) = some b ∧ b.pc 1 = .done (some 70) ∧ b.pc 0 = .done none ∧ b.st.log = [(7, 70), (8, 80)] := ⟨_, rfl, rfl, rfl, rfl⟩
  obtain ⟨b, h1, h2⟩ := h
  exact ⟨_, b, follow_run _ (by decide) (.nil _) h1, h2⟩

end Apop.VtRace
