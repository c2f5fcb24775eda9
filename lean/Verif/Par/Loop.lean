import Verif.Base.C

/-! # Parallel loops (`OMP_for`, apop_internal.h:57-66)

The iterations of an OpenMP loop are run by any number of threads, in any order, interleaved at any point. An iteration is a program on cells of
its own: the row, column or element it is given, and the element of the output it writes. Everything else it uses is only read, and is part of the
program. -/

namespace Apop.Par
variable {J V : Type}

/-- What an iteration does: read and write cells of its own, one at a time, and at last return a value. -/
inductive Prog (J V : Type) where
  | ret (v : V)
  | get (j : J) (k : V → Prog J V)
  | put (j : J) (v : V) (k : Prog J V)

/-- First this program, then the one that takes its value. -/
def Prog.bind : Prog J V → (V → Prog J V) → Prog J V
  | .ret v, f => f v
  | .get j k, f => .get j (fun v => (k v).bind f)
  | .put j v k, f => .put j v (k.bind f)

variable [DecidableEq J]

/-- The cells, with one changed. -/
def upd (c : J → V) (j : J) (v : V) : J → V := fun i => if i = j then v else c i

/-- The program run alone, from the start to the end: its value and the cells after it. -/
def Prog.run : Prog J V → (J → V) → V × (J → V)
  | .ret v, c => (v, c)
  | .get j k, c => (k (c j)).run c
  | .put j v k, c => k.run (upd c j v)

/-- How many steps that takes. -/
def Prog.steps : Prog J V → (J → V) → Nat
  | .ret _, _ => 0
  | .get j k, c => (k (c j)).steps c + 1
  | .put j v k, c => k.steps (upd c j v) + 1

/-- One step. -/
def Prog.step : Prog J V → (J → V) → Prog J V × (J → V)
  | .ret v, c => (.ret v, c)
  | .get j k, c => (k (c j), c)
  | .put j v k, c => (k, upd c j v)

def Prog.isRet : Prog J V → Bool
  | .ret _ => true
  | _ => false

/-- The state of a loop: for each iteration, its cells and what it has still to do. -/
structure Cfg (J V : Type) where
  cells : Nat → J → V
  rest : Nat → Prog J V

/-- Iteration `i` makes a step. -/
def stepAt (s : Cfg J V) (i : Nat) : Cfg J V :=
  { cells := fun k => if k = i then ((s.rest i).step (s.cells i)).2 else s.cells k
    rest := fun k => if k = i then ((s.rest i).step (s.cells i)).1 else s.rest k }

/-- All iterations are at their end. -/
def finished (n : Nat) (s : Cfg J V) : Bool := (List.range n).all (fun i => (s.rest i).isRet)

/-- A loop of `n` iterations under the schedule `σ`: at each moment, which iteration makes a step. The cells at the end, if all iterations have
come to theirs. -/
def loop (σ : List Nat) (n : Nat) (body : Nat → Prog J V) (cells : Nat → J → V) : Run (Nat → J → V) :=
  let s := (σ.filter (· < n)).foldl stepAt ⟨cells, body⟩
  if finished n s then .done s.cells else .more

/-! ## Every schedule gives what the iterations give one by one -/

/-- `k` steps of a program alone. -/
def steps (k : Nat) (p : Prog J V × (J → V)) : Prog J V × (J → V) := Nat.repeat (fun p => p.1.step p.2) k p

theorem steps_succ' (k : Nat) (p : Prog J V × (J → V)) : steps (k + 1) p = steps k (p.1.step p.2) := by
  induction k with
  | zero => rfl
  | succ k ih => show (steps (k + 1) p).1.step (steps (k + 1) p).2 = _; rw [ih]; rfl

theorem steps_ret (k : Nat) (v : V) (c : J → V) : steps k (.ret v, c) = (.ret v, c) := by
  induction k with
  | zero => rfl
  | succ k ih => rw [steps_succ', Prog.step]; exact ih

theorem steps_run (p : Prog J V) : ∀ (k : Nat) (c : J → V), p.steps c ≤ k → steps k (p, c) = (.ret (p.run c).1, (p.run c).2) := by
  induction p with
  | ret v => intro k c _; rw [steps_ret]; rfl
  | get j f ih =>
    intro k c h
    simp only [Prog.steps] at h
    obtain ⟨k, rfl⟩ : ∃ m, k = m + 1 := ⟨k - 1, by omega⟩
    rw [steps_succ']
    simp only [Prog.step, Prog.run]
    exact ih _ k c (by omega)
  | put j v f ih =>
    intro k c h
    simp only [Prog.steps] at h
    obtain ⟨k, rfl⟩ : ∃ m, k = m + 1 := ⟨k - 1, by omega⟩
    rw [steps_succ']
    simp only [Prog.step, Prog.run]
    exact ih k _ (by omega)

theorem steps_lt (p : Prog J V) : ∀ (k : Nat) (c : J → V), k < p.steps c → (steps k (p, c)).1.isRet = false := by
  induction p with
  | ret v => intro k c h; simp [Prog.steps] at h
  | get j f ih =>
    intro k c h
    cases k with
    | zero => rfl
    | succ k =>
      simp only [Prog.steps] at h
      rw [steps_succ']
      exact ih (c j) k c (by omega)
  | put j v f ih =>
    intro k c h
    cases k with
    | zero => rfl
    | succ k =>
      simp only [Prog.steps] at h
      rw [steps_succ']
      exact ih k (upd c j v) (by omega)

/-- Iteration `i` of the loop is where it would be after its own steps alone. -/
theorem fold_alone (i : Nat) : ∀ (σ : List Nat) (s : Cfg J V),
    ((σ.foldl stepAt s).rest i, (σ.foldl stepAt s).cells i) = steps (σ.count i) (s.rest i, s.cells i)
  | [], _ => rfl
  | k :: σ, s => by
    rw [List.foldl_cons, fold_alone i σ]
    by_cases h : i = k
    · subst h
      rw [List.count_cons_self, steps_succ']
      simp [stepAt]
    · rw [List.count_cons_of_ne (fun e => h e.symm)]
      simp [stepAt, h]

theorem count_filter_lt {n i : Nat} (h : i < n) (σ : List Nat) : (σ.filter (· < n)).count i = σ.count i := by
  rw [List.count_filter]; simpa using h

theorem count_filter_ge {n i : Nat} (h : n ≤ i) (σ : List Nat) : (σ.filter (· < n)).count i = 0 := by
  rw [List.count_eq_zero]
  intro hm
  have := (List.mem_filter.1 hm).2
  simp at this
  omega

/-- **Schedule independence.** Whatever the schedule, if the loop comes to its end, then the cells of each iteration are what the iteration alone
makes of them, and nothing else is changed. -/
theorem loop_done {σ : List Nat} {n : Nat} {body : Nat → Prog J V} {cells out : Nat → J → V} (h : loop σ n body cells = .done out) :
    out = fun i => if i < n then ((body i).run (cells i)).2 else cells i := by
  simp only [loop] at h
  split at h
  · rename_i hf
    injection h with h
    subst h
    funext i
    have hi := fold_alone i (σ.filter (· < n)) ⟨cells, body⟩
    by_cases hin : i < n
    · rw [if_pos hin]
      have hr : ((σ.filter (· < n)).foldl stepAt ⟨cells, body⟩ |>.rest i).isRet = true := by
        simp only [finished, List.all_eq_true, List.mem_range] at hf
        exact hf i hin
      rw [show ((σ.filter (· < n)).foldl stepAt ⟨cells, body⟩).rest i = (steps ((σ.filter (· < n)).count i) (body i, cells i)).1 from congrArg Prod.fst hi] at hr
      have hk : (body i).steps (cells i) ≤ (σ.filter (· < n)).count i := by
        rcases Nat.lt_or_ge ((σ.filter (· < n)).count i) ((body i).steps (cells i)) with hlt | hge
        · rw [steps_lt _ _ _ hlt] at hr; simp at hr
        · exact hge
      have := congrArg Prod.snd hi
      simp only at this
      rw [this, steps_run _ _ _ hk]
    · rw [if_neg hin]
      have := congrArg Prod.snd hi
      simp only at this
      rw [this, count_filter_ge (by omega)]
      rfl
  · simp at h

/-- **Termination.** A schedule that gives each iteration the steps it needs comes to the end. -/
theorem loop_fair {σ : List Nat} {n : Nat} {body : Nat → Prog J V} {cells : Nat → J → V} (h : ∀ i < n, (body i).steps (cells i) ≤ σ.count i) :
    loop σ n body cells = .done (fun i => if i < n then ((body i).run (cells i)).2 else cells i) := by
  have : ∃ out, loop σ n body cells = .done out := by
    refine ⟨((σ.filter (· < n)).foldl stepAt ⟨cells, body⟩).cells, ?_⟩
    simp only [loop]
    rw [if_pos]
    simp only [finished, List.all_eq_true, List.mem_range]
    intro i hi
    have hk := fold_alone i (σ.filter (· < n)) ⟨cells, body⟩
    have hk1 := congrArg Prod.fst hk
    simp only at hk1
    rw [hk1, count_filter_lt hi]
    rw [steps_run _ _ _ (h i hi)]
    rfl
  obtain ⟨out, ho⟩ := this
  rw [ho, loop_done ho]

/-- There is such a schedule: one iteration after the other, for example. -/
theorem exists_fair (n : Nat) (need : Nat → Nat) : ∃ σ : List Nat, ∀ i < n, need i ≤ σ.count i := by
  induction n with
  | zero => exact ⟨[], fun i h => by omega⟩
  | succ n ih =>
    obtain ⟨σ, h⟩ := ih
    refine ⟨σ ++ List.replicate (need n) n, fun i hi => ?_⟩
    rw [List.count_append]
    rcases Nat.lt_or_ge i n with h' | h'
    · have := h i h'; omega
    · have : i = n := by omega
      subst this
      simp

theorem bind_run (p : Prog J V) (f : V → Prog J V) : ∀ c : J → V, (p.bind f).run c = (f (p.run c).1).run (p.run c).2 := by
  induction p with
  | ret v => intro c; rfl
  | get j k ih => intro c; exact ih _ c
  | put j v k ih => intro c; exact ih _

end Apop.Par
