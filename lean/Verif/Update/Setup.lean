import Mathlib.Algebra.BigOperators.Group.Finset.Basic
import Mathlib.Algebra.Order.BigOperators.Group.Finset
import Mathlib.Tactic.Linarith

/-! # C208: the first calls of `apop_update`, from any number of threads

The conjugate pairs are registered by the first call (apop_update.m4.c:189-195): `static int setup=0; if (!(setup++)){` five registrations `}`, and then the lookup. Any number of threads call `apop_update` once each, under any schedule, with memory sequentially consistent; a registration and a lookup are one step each (C205 is about what goes on inside). -/

namespace Apop.UpdSetup

/-! ## The model -/

/-- How many pairs are registered, apop_update.m4.c:190-194. -/
def pairs : ℕ := 5

/-- Where a thread is: before the call; having read `setup`; before the registration of pair `i`; at the lookup (`own`: it did the registrations itself); past the lookup, with what it found. -/
inductive Pc where
  | start
  | read (v : ℕ)
  | reg (i : ℕ)
  | look (own : Bool)
  | done (own found : Bool)
deriving DecidableEq

/-- `setup`, and the table of pairs, by number. -/
structure St where
  setup : ℕ
  table : List ℕ

/-- `apop_vtable_add` (C25): nothing if the key is there. -/
def add (l : List ℕ) (k : ℕ) : List ℕ := if k ∈ l then l else l ++ [k]

/-- After `setup++`, apop_update.m4.c:189. -/
def afterRead (v : ℕ) : Pc := if v = 0 then .reg 0 else .look false

/-- After a registration. -/
def afterReg (i : ℕ) : Pc := if i + 1 < pairs then .reg (i + 1) else .look true

/-- A step of a thread whose prior and likelihood are pair number `key` (a number past the pairs: not conjugate). -/
def step (key : ℕ) (s : St) : Pc → Option (St × Pc)
  | .start => some (s, .read s.setup)
  | .read v => some ({ s with setup := v + 1 }, afterRead v)
  | .reg i => some ({ s with table := add s.table i }, afterReg i)
  | .look own => some (s, .done own (decide (key ∈ s.table)))
  | .done _ _ => none

/-- The threads together. -/
structure Cfg where
  st : St
  pc : ℕ → Pc

/-- Thread `t` makes its step. -/
def Cfg.Next (key : ℕ → ℕ) (t : ℕ) (a b : Cfg) : Prop := ∃ r, step (key t) a.st (a.pc t) = some r ∧ b.st = r.1 ∧ b.pc = fun u => if u = t then r.2 else a.pc u

/-- Runs of `n` threads, of `k` steps. -/
inductive Run (key : ℕ → ℕ) (n : ℕ) : ℕ → Cfg → Cfg → Prop
  | nil (a) : Run key n 0 a a
  | cons (k a b c t) (ht : t < n) (h : Run key n k a b) (hs : Cfg.Next key t b c) : Run key n (k + 1) a c

/-- The beginning: pairs a user has registered, no call made. -/
def init (L : List ℕ) : Cfg := ⟨⟨0, L⟩, fun _ => .start⟩

/-! ## Specification -/

/-- A call is under way. -/
def Pc.Busy : Pc → Prop
  | .read _ | .reg _ | .look _ => True
  | _ => False

/-- A call has returned from the lookup. -/
def Pc.Ended : Pc → Prop
  | .done _ _ => True
  | _ => False

/-- All the library's pairs are there. -/
def Complete (l : List ℕ) : Prop := ∀ i < pairs, i ∈ l

/-! ## The invariant -/

structure Inv (L : List ℕ) (a : Cfg) : Prop where
  pre : L <+: a.st.table
  nodup : L.Nodup → a.st.table.Nodup
  src : ∀ k ∈ a.st.table, k ∈ L ∨ k < pairs
  reg : ∀ t i, a.pc t = .reg i → i < pairs ∧ ∀ j < i, j ∈ a.st.table
  own : ∀ t, (a.pc t = .look true ∨ ∃ f, a.pc t = .done true f) → Complete a.st.table
  someone : (a.st.setup = 0 ∧ ∀ t, a.pc t = .start ∨ a.pc t = .read 0) ∨ (∃ t, a.pc t = .read 0 ∨ ∃ i, a.pc t = .reg i) ∨ Complete a.st.table

theorem add_pre (l : List ℕ) (k : ℕ) : l <+: add l k := by
  unfold add; split
  · exact List.prefix_refl _
  · exact List.prefix_append _ _

theorem mem_add (l : List ℕ) (k x : ℕ) : x ∈ add l k ↔ x ∈ l ∨ x = k := by
  unfold add; split
  · constructor
    · exact .inl
    · rintro (h | rfl) <;> assumption
  · simp

theorem nodup_add (l : List ℕ) (k : ℕ) (h : l.Nodup) : (add l k).Nodup := by
  unfold add; split
  · exact h
  · rename_i hk
    rw [List.nodup_append]
    exact ⟨h, List.nodup_singleton _, by intro a ha b hb; rw [List.mem_singleton.1 hb]; rintro rfl; exact hk ha⟩

theorem inv_init (L : List ℕ) : Inv L (init L) := by
  refine ⟨List.prefix_refl _, id, fun k h => .inl h, ?_, ?_, .inl ⟨rfl, fun _ => .inl rfl⟩⟩
  · intro t i h; cases h
  · rintro t (h | ⟨f, h⟩) <;> cases h

theorem inv_step {key : ℕ → ℕ} {L : List ℕ} {t : ℕ} {a b : Cfg} (hi : Inv L a) (hs : Cfg.Next key t a b) : Inv L b := by
  obtain ⟨⟨s', p'⟩, hst, h1, h2⟩ := hs
  obtain ⟨bs, bp⟩ := b
  dsimp only at h1 h2
  subst h1
  subst h2
  cases hp : a.pc t with
  | start =>
    rw [hp] at hst; cases hst
    refine ⟨hi.pre, hi.nodup, hi.src, ?_, ?_, ?_⟩
    · intro u i h; dsimp only at h; split at h
      · cases h
      · exact hi.reg u i h
    · intro u h; dsimp only at h; split at h
      · rcases h with h | ⟨f, h⟩ <;> cases h
      · exact hi.own u h
    · rcases hi.someone with ⟨h0, h⟩ | ⟨u, h⟩ | h
      · refine .inl ⟨h0, fun u => ?_⟩
        dsimp only; split
        · right; rw [h0]
        · exact h u
      · refine .inr (.inl ⟨u, ?_⟩)
        dsimp only
        have : u ≠ t := by rintro rfl; rw [hp] at h; rcases h with h | ⟨i, h⟩ <;> cases h
        rw [if_neg this]; exact h
      · exact .inr (.inr h)
  | read v =>
    rw [hp] at hst; cases hst
    refine ⟨hi.pre, hi.nodup, hi.src, ?_, ?_, ?_⟩
    · intro u i h; dsimp only at h; split at h
      · unfold afterRead at h; split at h
        · cases h; exact ⟨by decide, by intro j hj; omega⟩
        · cases h
      · exact hi.reg u i h
    · intro u h; dsimp only at h; split at h
      · unfold afterRead at h
        split at h <;> rcases h with h | ⟨f, h⟩ <;> cases h
      · exact hi.own u h
    · by_cases hv : v = 0
      · refine .inr (.inl ⟨t, .inr ⟨0, ?_⟩⟩)
        dsimp only; rw [if_pos rfl, afterRead, if_pos hv]
      · rcases hi.someone with ⟨h0, h⟩ | ⟨u, h⟩ | h
        · exfalso
          rcases h t with h | h <;> rw [hp] at h
          · cases h
          · cases h; exact hv rfl
        · refine .inr (.inl ⟨u, ?_⟩)
          dsimp only
          have : u ≠ t := by
            rintro rfl; rw [hp] at h; rcases h with h | ⟨i, h⟩
            · cases h; exact hv rfl
            · cases h
          rw [if_neg this]; exact h
        · exact .inr (.inr h)
  | reg i =>
    rw [hp] at hst; cases hst
    obtain ⟨hi5, hbelow⟩ := hi.reg t i hp
    have mono : ∀ x, x ∈ a.st.table → x ∈ add a.st.table i := fun x h => (mem_add _ _ _).2 (.inl h)
    have comp : Complete a.st.table → Complete (add a.st.table i) := fun h j hj => mono j (h j hj)
    have upto : ∀ j < i + 1, j ∈ add a.st.table i := by
      intro j hj
      rcases Nat.lt_succ_iff_lt_or_eq.1 hj with h | h
      · exact mono j (hbelow j h)
      · exact (mem_add _ _ _).2 (.inr h)
    refine ⟨hi.pre.trans (add_pre _ _), fun h => nodup_add _ _ (hi.nodup h), ?_, ?_, ?_, ?_⟩
    · intro k hk
      rcases (mem_add _ _ _).1 hk with h | rfl
      · exact hi.src k h
      · exact .inr hi5
    · intro u j h; dsimp only at h; split at h
      · unfold afterReg at h; split at h
        · cases h; exact ⟨by assumption, upto⟩
        · cases h
      · obtain ⟨h1, h2⟩ := hi.reg u j h
        exact ⟨h1, fun x hx => mono x (h2 x hx)⟩
    · intro u h; dsimp only at h; split at h
      · unfold afterReg at h
        split at h
        · rcases h with h | ⟨f, h⟩ <;> cases h
        · intro j hj; exact upto j (by omega)
      · exact comp (hi.own u h)
    · by_cases hlast : i + 1 < pairs
      · refine .inr (.inl ⟨t, .inr ⟨i + 1, ?_⟩⟩)
        dsimp only; rw [if_pos rfl, afterReg, if_pos hlast]
      · exact .inr (.inr fun j hj => upto j (by omega))
  | look own =>
    rw [hp] at hst; cases hst
    refine ⟨hi.pre, hi.nodup, hi.src, ?_, ?_, ?_⟩
    · intro u i h; dsimp only at h; split at h
      · cases h
      · exact hi.reg u i h
    · intro u h; dsimp only at h; split at h
      · rcases h with h | ⟨f, h⟩
        · cases h
        · cases h; exact hi.own t (.inl hp)
      · exact hi.own u h
    · rcases hi.someone with ⟨h0, h⟩ | ⟨u, h⟩ | h
      · rcases h t with h | h <;> rw [hp] at h <;> cases h
      · refine .inr (.inl ⟨u, ?_⟩)
        dsimp only
        have : u ≠ t := by rintro rfl; rw [hp] at h; rcases h with h | ⟨i, h⟩ <;> cases h
        rw [if_neg this]; exact h
      · exact .inr (.inr h)
  | done o f => rw [hp] at hst; cases hst

theorem inv_run {key : ℕ → ℕ} {n k : ℕ} {L : List ℕ} {a b : Cfg} (h : Run key n k a b) (hi : Inv L a) : Inv L b := by
  induction h with
  | nil => exact hi
  | cons k a b c t ht h hs ih => exact inv_step (ih hi) hs

theorem table_mono {key : ℕ → ℕ} {n k : ℕ} {a b : Cfg} (h : Run key n k a b) : a.st.table <+: b.st.table := by
  induction h with
  | nil => exact List.prefix_refl _
  | cons k a b c t ht h hs ih =>
    obtain ⟨r, hst, h1, h2⟩ := hs
    apply ih.trans
    rw [h1]
    cases hp : b.pc t <;> rw [hp] at hst <;> cases hst
    · exact List.prefix_refl _
    · exact List.prefix_refl _
    · exact add_pre _ _
    · exact List.prefix_refl _

/-- Once the table is complete, every later lookup finds its pair. -/
theorem found_run {key : ℕ → ℕ} {n k : ℕ} {a b : Cfg} (h : Run key n k a b) (hc : Complete a.st.table) (u : ℕ) (hk : key u < pairs) (hb : ¬ (a.pc u).Ended) :
    ∀ o f, b.pc u = .done o f → f = true := by
  induction h with
  | nil => intro o f h; exact absurd (by rw [h]; trivial) hb
  | cons k a b c t ht h hs ih =>
    intro o f hd
    have hcb : Complete b.st.table := fun j hj => (table_mono h).subset (hc j hj)
    obtain ⟨r, hst, h1, h2⟩ := hs
    rw [h2] at hd
    dsimp only at hd
    split at hd
    · rename_i e
      subst e
      cases hp : b.pc u with
      | start => rw [hp] at hst; cases hst; cases hd
      | read v => rw [hp] at hst; cases hst; unfold afterRead at hd; split at hd <;> cases hd
      | reg i => rw [hp] at hst; cases hst; unfold afterReg at hd; split at hd <;> cases hd
      | look own => rw [hp] at hst; cases hst; cases hd; exact decide_eq_true (hcb _ hk)
      | done o f => rw [hp] at hst; cases hst
    · exact ih hc hb o f hd

/-! ## The theorems -/

/-- **C208**: under any schedule, the table is what the user registered followed by pairs of the library, no key twice. -/
theorem C208_table {key : ℕ → ℕ} {n k : ℕ} {L : List ℕ} (hL : L.Nodup) {a : Cfg} (h : Run key n k (init L) a) :
    L <+: a.st.table ∧ a.st.table.Nodup ∧ ∀ x ∈ a.st.table, x ∈ L ∨ x < pairs := by
  have hi := inv_run h (inv_init L)
  exact ⟨hi.pre, hi.nodup hL, hi.src⟩

/-- **C208**: if at some moment at least one call has returned from its lookup and none is under way, then all pairs are there, and every call from then on, under any schedule, finds its conjugate pair. -/
theorem C208_later {key : ℕ → ℕ} {n k k' : ℕ} {L : List ℕ} {a b : Cfg} (h : Run key n k (init L) a) (h' : Run key n k' a b)
    (hq : ∀ t, ¬ (a.pc t).Busy) (t : ℕ) (ht : (a.pc t).Ended) :
    Complete a.st.table ∧ ∀ u o f, key u < pairs → a.pc u = .start → b.pc u = .done o f → f = true := by
  have hi := inv_run h (inv_init L)
  have hc : Complete a.st.table := by
    rcases hi.someone with ⟨-, h⟩ | ⟨u, h⟩ | h
    · rcases h t with h | h <;> rw [h] at ht <;> exact ht.elim
    · exfalso; apply hq u
      rcases h with h | ⟨i, h⟩ <;> rw [h] <;> trivial
    · exact h
  exact ⟨hc, fun u o f hk hs hd => found_run h' hc u hk (by rw [hs]; exact id) o f hd⟩

/-- **C208**: a call that did the registrations itself finds its pair, whatever the others do; so a program of one thread always does. -/
theorem C208_own {key : ℕ → ℕ} {n k : ℕ} {L : List ℕ} {a : Cfg} (h : Run key n k (init L) a) (u : ℕ) (f : Bool) (hk : key u < pairs) (hd : a.pc u = .done true f) : f = true := by
  have gen : ∀ {k : ℕ} {a : Cfg}, Run key n k (init L) a → ∀ f, a.pc u = .done true f → f = true := by
    intro k a h
    generalize hz : init L = z at h
    induction h with
    | nil => subst hz; intro f h; cases h
    | cons k a b c t ht h hs ih =>
      intro f hd
      have hi := inv_run h (hz ▸ inv_init L)
      obtain ⟨r, hst, h1, h2⟩ := hs
      rw [h2] at hd
      dsimp only at hd
      split at hd
      · rename_i e
        subst e
        cases hp : b.pc u with
        | start => rw [hp] at hst; cases hst; cases hd
        | read v => rw [hp] at hst; cases hst; unfold afterRead at hd; split at hd <;> cases hd
        | reg i => rw [hp] at hst; cases hst; unfold afterReg at hd; split at hd <;> cases hd
        | look own =>
          rw [hp] at hst; cases hst; cases hd
          exact decide_eq_true (hi.own u (.inl hp) _ hk)
        | done o f => rw [hp] at hst; cases hst
      · exact ih hz f hd
  exact gen h f hd

/-- The steps a thread has left, at most. -/
def left : Pc → ℕ
  | .start => pairs + 3
  | .read _ => pairs + 2
  | .reg i => pairs + 1 - i
  | .look _ => 1
  | .done _ _ => 0

/-- **C208**: all calls get past the lookup: with `n` threads there are at most eight steps each, and as long as not all are past it one of them can go on. -/
theorem C208_ends {key : ℕ → ℕ} {n k : ℕ} {L : List ℕ} {a : Cfg} (h : Run key n k (init L) a) :
    k ≤ n * 8 ∧ ((∃ t < n, ¬ (a.pc t).Ended) → ∃ t < n, ∃ b, Cfg.Next key t a b) := by
  constructor
  · have gen : ∀ {k : ℕ} {a : Cfg}, Run key n k (init L) a → k + ∑ t ∈ Finset.range n, left (a.pc t) ≤ n * 8 := by
      intro k a h
      generalize hz : init L = z at h
      induction h with
      | nil => subst hz; simp [init, left, pairs]
      | cons k a b c t ht h hs ih =>
        have ih := ih hz
        have hi := inv_run h (hz ▸ inv_init L)
        obtain ⟨r, hst, h1, h2⟩ := hs
        have hlt : left r.2 + 1 ≤ left (b.pc t) := by
          cases hp : b.pc t with
          | start => rw [hp] at hst; cases hst; simp [left]
          | read v => rw [hp] at hst; cases hst; unfold afterRead; split <;> simp [left, pairs]
          | reg i =>
            obtain ⟨h5, -⟩ := hi.reg t i hp
            rw [hp] at hst; cases hst; unfold afterReg; split <;> simp only [left] <;> omega
          | look own => rw [hp] at hst; cases hst; simp [left]
          | done o f => rw [hp] at hst; cases hst
        have hm : t ∈ Finset.range n := Finset.mem_range.2 ht
        have e1 : ∑ u ∈ Finset.range n, left (c.pc u) = left r.2 + ∑ u ∈ (Finset.range n).erase t, left (b.pc u) := by
          rw [← Finset.add_sum_erase _ _ hm, h2]
          congr 1
          · simp
          · apply Finset.sum_congr rfl
            intro u hu
            dsimp only
            rw [if_neg (Finset.ne_of_mem_erase hu)]
        have e2 := Finset.add_sum_erase (Finset.range n) (fun u => left (b.pc u)) hm
        rw [e1]
        omega
    have := gen h
    omega
  · rintro ⟨t, ht, hn⟩
    refine ⟨t, ht, ?_⟩
    have : ∃ r, step (key t) a.st (a.pc t) = some r := by
      cases hp : a.pc t with
      | done o f => exact absurd (by rw [hp]; trivial) hn
      | _ => exact ⟨_, rfl⟩
    obtain ⟨r, hr⟩ := this
    exact ⟨⟨r.1, fun u => if u = t then r.2 else a.pc u⟩, r, hr, rfl, rfl⟩

/-- The runs of a schedule. -/
def go (key : ℕ → ℕ) : List ℕ → Cfg → Option Cfg
  | [], a => some a
  | t :: ts, a => match step (key t) a.st (a.pc t) with
    | none => none
    | some r => go key ts ⟨r.1, fun u => if u = t then r.2 else a.pc u⟩

theorem go_run (key : ℕ → ℕ) (n : ℕ) : ∀ (ts : List ℕ) (k : ℕ) (z a b : Cfg), (∀ t ∈ ts, t < n) → Run key n k z a → go key ts a = some b → Run key n (k + ts.length) z b
  | [], k, z, a, b, _, h, hg => by cases hg; exact h
  | t :: ts, k, z, a, b, ht, h, hg => by
    unfold go at hg
    split at hg
    · cases hg
    · rename_i r hr
      have := go_run key n ts (k + 1) z _ b (fun u hu => ht u (List.mem_cons_of_mem _ hu)) (.cons k z a _ t (ht t List.mem_cons_self) h ⟨r, hr, rfl, rfl⟩) hg
      rw [List.length_cons, show k + (ts.length + 1) = k + 1 + ts.length by omega]
      exact this

/-- **C208** refuted for calls during the first one: while thread 0 registers, thread 1's call finds no conjugate pair for a prior and likelihood that are one (and goes on to a Markov chain). -/
theorem C208_during_refuted (L : List ℕ) (k : ℕ) (_ : k < pairs) (hL : k ∉ L) : ∃ a, Run (fun _ => k) 2 5 (init L) a ∧ a.pc 1 = .done false false := by
  have e : go (fun _ => k) [0, 0, 1, 1, 1] (init L) = some ⟨⟨2, L⟩, fun u => if u = 1 then .done false (decide (k ∈ L)) else if u = 1 then .look false else if u = 1 then .read 1 else if u = 0 then .reg 0 else if u = 0 then .read 0 else .start⟩ := rfl
  refine ⟨_, by simpa using go_run (fun _ => k) 2 _ 0 _ _ _ (by decide) (.nil _) e, ?_⟩
  simp [hL]

/-- Two threads that both read 0 both register, and each pair is there once; both find theirs. -/
example : (go id [0, 1, 0, 1, 0, 1, 1, 0, 0, 1, 0, 1, 0, 1, 0, 1] (init [7])).map (fun a => (a.st.table, a.pc 0, a.pc 1)) = some ([7, 0, 1, 2, 3, 4], .done true true, .done true true) := by decide +kernel

/-- A call ended, none under way: the next one finds its pair. -/
example : (go (fun _ => 3) [0, 0, 0, 0, 0, 0, 0, 0, 1, 1, 1] (init [])).map (fun a => (a.pc 0, a.pc 1, a.pc 2)) = some (.done true true, .done false true, .start) := by decide +kernel

end Apop.UpdSetup
