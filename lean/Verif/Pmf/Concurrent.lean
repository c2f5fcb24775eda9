import Verif.Pmf.Draw
import Mathlib.Order.Lattice.Nat

/-! # C180: many threads drawing from one PMF

`apop_draw` on a PMF (model/apop_pmf.c:134-186) and its CDF (model/apop_pmf.c:272-285), run by any number of threads on one model with weights, as `apop_model_draws` does (apop_model.m4.c:600-650) and as a mixture's draws do
(transform/apop_mixture.c:277-290). A schedule is any list of thread numbers; at each entry that thread takes one step. Memory is sequentially consistent. -/

namespace Apop.Conc
open Apop.Pmf

/-- A block of settings (`apop_pmf_settings`): the cumulative vector, `none` for a `NULL` pointer; an element that is `none` has been allocated and not written. -/
structure Grp where
  cmf : Option (List (Option ℝ))

/-- An address: never allocated, in use, or freed. -/
inductive Slot where
  | unused
  | live (g : Grp)
  | freed

/-- What the threads share: the blocks by address; the next free address; the block that the model's list of groups points to; `m->error == 'f'`; who is inside critical section `pmfsetup`, and `pmfsetuptwo`; how many cumulative vectors have
been allocated. -/
structure Mem where
  slots : ℕ → Slot
  next : ℕ
  cur : Option ℕ
  err : Bool
  setup : Option ℕ
  two : Option ℕ
  builds : ℕ

/-- What a thread was asked for: a draw, with the uniform number it will get; or the CDF at the `e`th row. -/
inductive Job where
  | draw (u : ℝ)
  | cdf (e : ℕ)

/-- What a call gives: a row; a number; the error return of model/apop_pmf.c:147 and 281. -/
inductive Outcome where
  | row (i : ℕ)
  | val (x : ℝ)
  | bad

/-- Where a thread is. `s` is its local pointer `settings`, `c` the pointer of the same name in `setup_cmf`. -/
inductive Pc where
  | start
  | looked (s : Option ℕ)
  | inSetup (s : Option ℕ)
  | ready (s : ℕ)
  | inTwo (s : ℕ)
  | fill (s c i : ℕ)
  | scale (s c i : ℕ) (f : ℝ)
  | leave (s : ℕ)
  | check (s : ℕ)
  | seek (s : ℕ) (st : SearchSt)
  | sum (s i : ℕ) (acc : ℝ)
  | done (o : Outcome)
  | ub

/-- The cumulative vector behind a pointer to settings; `none` if the block is not live or the vector is `NULL`. -/
def Mem.buf (m : Mem) (s : ℕ) : Option (List (Option ℝ)) :=
  match m.slots s with
  | .live g => g.cmf
  | _ => none

/-- Reading an element: only one that is there and written. -/
def elt (b : List (Option ℝ)) (i : ℕ) : Option ℝ := (b[i]?).join

/-- Store a cumulative vector in a block. -/
def Mem.put (m : Mem) (c : ℕ) (b : List (Option ℝ)) : Mem :=
  { m with slots := fun a => if a = c then .live ⟨some b⟩ else m.slots a }

/-- Free the block that the model has, if it has one (apop_settings.c:25-40, called at 46). -/
def Mem.drop (m : Mem) : Mem :=
  match m.cur with
  | none => m
  | some c => { m with slots := fun a => if a = c then .freed else m.slots a }

/-- `Apop_model_add_group`: apop_settings.c:45-57, with the block as the initialiser at model/apop_pmf.c:70-74 leaves it. -/
def Mem.add (m : Mem) : Mem :=
  { m.drop with slots := fun a => if a = m.next then .live ⟨none⟩ else m.drop.slots a, next := m.next + 1, cur := some m.next }

/-- `if (!settings) settings = Apop_model_add_group(m, apop_pmf)`: model/apop_pmf.c:138, 279. -/
def addIfNull (m : Mem) : Option ℕ → Mem × ℕ
  | some s => (m, s)
  | none => (m.add, m.next)

/-- `if (!settings->cmf) setup_cmf(m)`, the test and the start of the function: model/apop_pmf.c:146, 280, 94-97. The function looks the settings up again. -/
def enter (n : ℕ) (m : Mem) (s : ℕ) : Mem × Pc :=
  match m.slots s with
  | .live g =>
    match g.cmf with
    | some _ => (m, .leave s)
    | none =>
      match m.cur with
      | none => (m, .ub)
      | some c => ({ m.put c (List.replicate n none) with builds := m.builds + 1 }, .fill s c 0)
  | _ => (m, .ub)

/-- What goes in element `i`, model/apop_pmf.c:100-102; `none` is a read of something not there. -/
noncomputable def cell (ws : List ℝ) (b : List (Option ℝ)) (i : ℕ) : Option ℝ :=
  match ws[i]? with
  | none => none
  | some w => if i = 0 then some w else (elt b (i - 1)).map (w + ·)

/-- After the loop: model/apop_pmf.c:104-106. -/
noncomputable def total (ws : List ℝ) (m : Mem) (b : List (Option ℝ)) (s c : ℕ) : Mem × Pc :=
  match elt b (ws.length - 1) with
  | none => (m, .ub)
  | some l => if l = 0 then ({ m with err := true }, .leave s) else (m, .scale s c 0 (1 / l))

/-- The loop of `setup_cmf`, an element at a time: model/apop_pmf.c:100-102. (The function writes through a local alias of the vector; here the writes go to the vector that the block has, which is the same unless another thread has put another
one in its place. In none of the runs spoken of below does that happen.) -/
noncomputable def fillStep (ws : List ℝ) (m : Mem) (s c i : ℕ) : Mem × Pc :=
  match m.buf c with
  | none => (m, .ub)
  | some b =>
    if i < ws.length then
      match cell ws b i with
      | none => (m, .ub)
      | some x => (m.put c (b.set i (some x)), .fill s c (i + 1))
    else total ws m b s c

/-- `gsl_vector_scale`, an element at a time: model/apop_pmf.c:106. (With exact arithmetic the test at 107 never fails.) -/
noncomputable def scaleStep (ws : List ℝ) (m : Mem) (s c i : ℕ) (f : ℝ) : Mem × Pc :=
  if i < ws.length then
    match m.buf c with
    | none => (m, .ub)
    | some b =>
      match elt b i with
      | none => (m, .ub)
      | some x => (m.put c (b.set i (some (x * f))), .scale s c (i + 1) f)
  else (m, .leave s)

/-- What is read in a round of the search, as `Pmf.here`. -/
def hereOn (b : List (Option ℝ)) (cur : ℕ) : Option (ℝ × ℝ × ℝ) :=
  if cur = 0 then none else
  match elt b cur, elt b (cur - 1), elt b 0 with
  | some x, some y, some z => some (x, y, z)
  | _, _, _ => none

/-- A round of the search, model/apop_pmf.c:158-172, as in `Pmf.search`. The reads of a round are one step here. -/
noncomputable def roundOn (b : List (Option ℝ)) (u : ℝ) (s : ℕ) (st : SearchSt) : Pc :=
  match hereOn b st.cur with
  | none => .ub
  | some (x, y, z) =>
    if u ≤ x ∧ y < u then .done (.row st.cur)
    else if (turn u x y st).cur = 0 ∧ u ≤ z then .done (.row 0)
    else .seek s (turn u x y st)

/-- The start of the search, model/apop_pmf.c:144, 150-157, as in `Pmf.drawSized`. -/
noncomputable def startOn (size : ℕ) (b : List (Option ℝ)) (u : ℝ) (s : ℕ) : Pc :=
  if (size - 1) / 2 = 0 then
    if size ≠ 1 then
      match elt b 0 with
      | none => .ub
      | some z => if z < u then .done (.row 1) else .done (.row 0)
    else .done (.row 0)
  else .seek s ⟨size - 1, 0, (size - 1) / 2⟩

/-- After the setup: the error return (model/apop_pmf.c:147, 281), or on to the vector. -/
noncomputable def checkStep (ws : List ℝ) (m : Mem) (s : ℕ) (j : Job) : Pc :=
  if m.err then .done .bad else
  match m.buf s, j with
  | none, _ => .ub
  | some b, .draw u => startOn ws.length b u s
  | some b, .cdf e => if e < b.length then .sum s 0 0 else .ub

/-- A round of the search on whatever the vector is by now. -/
noncomputable def seekStep (m : Mem) (s : ℕ) (st : SearchSt) (u : ℝ) : Pc :=
  match m.buf s with
  | none => .ub
  | some b => roundOn b u s st

/-- `apop_sum` of the first `e + 1` elements, one at a time: model/apop_pmf.c:282-283. -/
noncomputable def sumStep (m : Mem) (s i : ℕ) (acc : ℝ) (e : ℕ) : Pc :=
  match (m.buf s).bind (elt · i) with
  | none => .ub
  | some x => if i = e then .done (.val (acc + x)) else .sum s (i + 1) (acc + x)

/-- One step of thread `t`; `none` if it has to wait at a critical section, or has ended. A draw has its two setup phases inside critical sections (model/apop_pmf.c:137, 145); the CDF has not (model/apop_pmf.c:278-280). -/
noncomputable def step (ws : List ℝ) (t : ℕ) (m : Mem) : Job → Pc → Option (Mem × Pc)
  | _, .start => some (m, .looked m.cur)
  | .draw _, .looked s => if m.setup = none then some ({ m with setup := some t }, .inSetup s) else none
  | .cdf _, .looked s => some ((addIfNull m s).1, .ready (addIfNull m s).2)
  | _, .inSetup s => some ({ (addIfNull m s).1 with setup := none }, .ready (addIfNull m s).2)
  | .draw _, .ready s => if m.two = none then some ({ m with two := some t }, .inTwo s) else none
  | .cdf _, .ready s => some (m, .inTwo s)
  | _, .inTwo s => some (enter ws.length m s)
  | _, .fill s c i => some (fillStep ws m s c i)
  | _, .scale s c i f => some (scaleStep ws m s c i f)
  | .draw _, .leave s => some ({ m with two := none }, .check s)
  | .cdf _, .leave s => some (m, .check s)
  | j, .check s => some (m, checkStep ws m s j)
  | .draw u, .seek s st => some (m, seekStep m s st u)
  | .cdf e, .sum s i acc => some (m, sumStep m s i acc e)
  | _, _ => none

/-- The program: the shared memory and where each thread is. -/
structure Sys where
  mem : Mem
  pc : ℕ → Pc

/-- The scheduler picks thread `t`; there are `n` threads. -/
noncomputable def pick (ws : List ℝ) (n : ℕ) (jobs : ℕ → Job) (s : Sys) (t : ℕ) : Sys :=
  if t < n then
    match step ws t s.mem (jobs t) (s.pc t) with
    | none => s
    | some (m, p) => ⟨m, fun i => if i = t then p else s.pc i⟩
  else s

/-- A whole schedule. -/
noncomputable def runSched (ws : List ℝ) (n : ℕ) (jobs : ℕ → Job) (s : Sys) (σ : List ℕ) : Sys := σ.foldl (pick ws n jobs) s

/-- All threads about to call; the model has the group, with no cumulative vector yet: as after `apop_estimate` (model/apop_pmf.c:78-90). -/
def fresh : Sys := ⟨⟨fun a => if a = 0 then .live ⟨none⟩ else .unused, 1, some 0, false, none, none, 0⟩, fun _ => .start⟩

/-- As `fresh`, after an earlier draw or CDF has made the vector. -/
def warm (c : List ℝ) : Sys := ⟨⟨fun a => if a = 0 then .live ⟨some (c.map some)⟩ else .unused, 1, some 0, false, none, none, 1⟩, fun _ => .start⟩

/-- The model has no such group: one that was set up by hand and not estimated. -/
def bare : Sys := ⟨⟨fun _ => .unused, 0, none, false, none, none, 0⟩, fun _ => .start⟩

/-! ## Specification -/

/-- The row that the cumulative shares give for a uniform number: the only one whose share contains it. -/
def IsRow (ws : List ℝ) (u : ℝ) (i : ℕ) : Prop := i < ws.length ∧ u ≤ cumShare ws (i + 1) ∧ (u = 0 → i = 0) ∧ (0 < u → cumShare ws i < u)

/-! ## Proofs -/

/-- The finished vector. -/
noncomputable def fin (ws : List ℝ) : List ℝ := (cumul 0 ws).map (· * (1 / ws.sum))

/-- The vector with `i` elements written. -/
noncomputable def part (ws : List ℝ) (i : ℕ) : List (Option ℝ) := ((cumul 0 ws).take i).map some ++ List.replicate (ws.length - i) none

/-- The vector with `i` elements scaled. -/
noncomputable def scal (ws : List ℝ) (i : ℕ) : List (Option ℝ) := (((cumul 0 ws).take i).map (· * (1 / ws.sum))).map some ++ ((cumul 0 ws).drop i).map some

theorem part_zero (ws : List ℝ) : part ws 0 = List.replicate ws.length none := by simp [part]

theorem part_all (ws : List ℝ) : part ws ws.length = (cumul 0 ws).map some := by
  simp [part, List.take_of_length_le, cumul_length]

theorem scal_zero (ws : List ℝ) : scal ws 0 = (cumul 0 ws).map some := by simp [scal]

theorem scal_all (ws : List ℝ) : scal ws ws.length = (fin ws).map some := by
  simp [scal, fin, List.take_of_length_le, List.drop_of_length_le, cumul_length]

theorem fin_length (ws : List ℝ) : (fin ws).length = ws.length := by simp [fin, cumul_length]

theorem part_length (ws : List ℝ) {i : ℕ} (h : i ≤ ws.length) : (part ws i).length = ws.length := by
  simp [part, cumul_length]; omega

theorem elt_part (ws : List ℝ) {i k : ℕ} (hi : i ≤ ws.length) (hk : k < i) : elt (part ws i) k = (cumul 0 ws)[k]? := by
  unfold elt part
  rw [List.getElem?_append_left (by simp [cumul_length]; omega), List.getElem?_map, List.getElem?_take_of_lt hk]
  rw [List.getElem?_eq_getElem (by rw [cumul_length]; omega)]
  rfl

theorem elt_map (c : List ℝ) (i : ℕ) : elt (c.map some) i = c[i]? := by
  unfold elt
  rw [List.getElem?_map]
  cases c[i]? <;> rfl

theorem part_set (ws : List ℝ) {i : ℕ} {x : ℝ} (hi : i < ws.length) (hx : (cumul 0 ws)[i]? = some x) : (part ws i).set i (some x) = part ws (i + 1) := by
  have hl : i < (cumul 0 ws).length := by rw [cumul_length]; exact hi
  have hx' : (cumul 0 ws)[i] = x := by rw [List.getElem?_eq_getElem hl] at hx; exact Option.some.inj hx
  unfold part
  rw [List.set_append_right _ _ (by simp [cumul_length])]
  have h1 : i - (List.map some (List.take i (cumul 0 ws))).length = 0 := by simp [cumul_length]; omega
  rw [h1, show ws.length - i = (ws.length - (i + 1)) + 1 by omega, List.replicate_succ, List.set_cons_zero, List.take_succ_eq_append_getElem hl, hx']
  simp

theorem scal_set (ws : List ℝ) {i : ℕ} {x : ℝ} (hi : i < ws.length) (hx : (cumul 0 ws)[i]? = some x) :
    elt (scal ws i) i = some x ∧ (scal ws i).set i (some (x * (1 / ws.sum))) = scal ws (i + 1) := by
  have hl : i < (cumul 0 ws).length := by rw [cumul_length]; exact hi
  have hx' : (cumul 0 ws)[i] = x := by rw [List.getElem?_eq_getElem hl] at hx; exact Option.some.inj hx
  have h1 : i - (List.map some (List.map (· * (1 / ws.sum)) (List.take i (cumul 0 ws)))).length = 0 := by simp [cumul_length]; omega
  constructor
  · unfold elt scal
    rw [List.getElem?_append_right (by simp [cumul_length]), h1, List.drop_eq_getElem_cons hl, hx']
    rfl
  · unfold scal
    rw [List.set_append_right _ _ (by simp [cumul_length]), h1, List.drop_eq_getElem_cons hl, List.map_cons, List.set_cons_zero, List.take_succ_eq_append_getElem hl, hx']
    simp

theorem cell_part (ws : List ℝ) {i : ℕ} (hi : i < ws.length) : cell ws (part ws i) i = (cumul 0 ws)[i]? := by
  unfold cell
  rw [List.getElem?_eq_getElem hi]
  simp only
  by_cases h0 : i = 0
  · subst h0
    rw [if_pos rfl, cumul_get 0 ws 0 hi]
    cases ws with
    | nil => simp at hi
    | cons w ws => simp
  · rw [if_neg h0, elt_part ws hi.le (by omega), cumul_get 0 ws _ (by omega), cumul_get 0 ws i hi, show i - 1 + 1 = i by omega, List.sum_take_succ _ _ hi]
    simp [add_comm]

theorem elt_last (ws : List ℝ) (h : ws ≠ []) : elt (part ws ws.length) (ws.length - 1) = some ws.sum := by
  have hl := List.length_pos_iff.2 h
  rw [elt_part ws le_rfl (by omega), cumul_get 0 ws _ (by omega), show ws.length - 1 + 1 = ws.length by omega]
  simp

/-- How far the vector is. -/
inductive Phase where
  | null
  | fill (h i : ℕ)
  | scale (h i : ℕ)
  | built

/-- What the vector is in each phase. -/
noncomputable def vecOf (ws : List ℝ) : Phase → Option (List (Option ℝ))
  | .null => none
  | .fill _ i => some (part ws i)
  | .scale _ i => some (scal ws i)
  | .built => if ws.sum = 0 then some (part ws ws.length) else some ((fin ws).map some)

open Classical in
/-- The error mark in each phase. -/
noncomputable def errOf (ws : List ℝ) : Phase → Bool
  | .built => decide (ws.sum = 0)
  | _ => false

def buildsOf : Phase → ℕ
  | .null => 0
  | _ => 1

/-- Who makes the vector, in the phases in which it is being made. -/
def Phase.holder : Phase → Option ℕ
  | .fill h _ => some h
  | .scale h _ => some h
  | _ => none

def Job.isDraw : Job → Prop
  | .draw _ => True
  | .cdf _ => False

structure MemOk (ws : List ℝ) (n : ℕ) (jobs : ℕ → Job) (ph : Phase) (m : Mem) : Prop where
  cur : m.cur = some 0
  vec : m.slots 0 = .live ⟨vecOf ws ph⟩
  err : m.err = errOf ws ph
  builds : m.builds = buildsOf ph
  draws : ph ≠ .built → ∀ t < n, (jobs t).isDraw
  hold : ∀ h, ph.holder = some h → m.two = some h
  two : ∀ h, m.two = some h → h < n
  setup : ∀ h, m.setup = some h → h < n

/-- What a thread may have been given. -/
def outOk (ws : List ℝ) : Job → Outcome → Prop
  | .draw u, .row i => ws.sum ≠ 0 ∧ drawRow (fin ws) u (ws.length + 1) = .row i
  | .cdf e, .val x => ws.sum ≠ 0 ∧ x = ((fin ws).take (e + 1)).sum
  | _, .bad => ws.sum = 0
  | _, _ => False

/-- Where thread `t` may be. -/
def PcOk (ws : List ℝ) (ph : Phase) (setup two : Option ℕ) (t : ℕ) (j : Job) : Pc → Prop
  | .start => setup ≠ some t ∧ two ≠ some t
  | .looked s => s = some 0 ∧ setup ≠ some t ∧ two ≠ some t
  | .inSetup s => s = some 0 ∧ setup = some t ∧ two ≠ some t ∧ j.isDraw
  | .ready s => s = 0 ∧ setup ≠ some t ∧ two ≠ some t
  | .inTwo s => s = 0 ∧ setup ≠ some t ∧ ((j.isDraw ∧ two = some t ∧ ph.holder = none) ∨ (¬ j.isDraw ∧ two ≠ some t ∧ ph = .built))
  | .fill s c i => s = 0 ∧ c = 0 ∧ setup ≠ some t ∧ j.isDraw ∧ two = some t ∧ ph = .fill t i ∧ i ≤ ws.length
  | .scale s c i f => s = 0 ∧ c = 0 ∧ setup ≠ some t ∧ j.isDraw ∧ two = some t ∧ ph = .scale t i ∧ i ≤ ws.length ∧ f = 1 / ws.sum ∧ ws.sum ≠ 0
  | .leave s => s = 0 ∧ setup ≠ some t ∧ (two = some t ↔ j.isDraw) ∧ ph = .built
  | .check s => s = 0 ∧ setup ≠ some t ∧ two ≠ some t ∧ ph = .built
  | .seek s st => s = 0 ∧ setup ≠ some t ∧ two ≠ some t ∧ ph = .built ∧ ws.sum ≠ 0 ∧
      ∃ (u : ℝ) (k i : ℕ), j = .draw u ∧ search (fin ws) u k st = .row i ∧ drawRow (fin ws) u (ws.length + 1) = .row i
  | .sum s i acc => s = 0 ∧ setup ≠ some t ∧ two ≠ some t ∧ ph = .built ∧ ws.sum ≠ 0 ∧ ∃ e : ℕ, j = .cdf e ∧ i ≤ e ∧ e < ws.length ∧ acc = ((fin ws).take i).sum
  | .done o => setup ≠ some t ∧ two ≠ some t ∧ ph = .built ∧ outOk ws j o
  | .ub => False

/-- The rest of the threads when one of them moves. -/
theorem PcOk.other {ws : List ℝ} {ph ph' : Phase} {setup two setup' two' : Option ℕ} {t : ℕ} {j : Job} {p : Pc} (h : PcOk ws ph setup two t j p)
    (hs : setup' = some t ↔ setup = some t) (ht : two' = some t ↔ two = some t)
    (hp : ph' = ph ∨ (two ≠ some t ∧ ph ≠ .built)) : PcOk ws ph' setup' two' t j p := by
  rcases hp with rfl | ⟨h2, hb⟩
  · cases p <;> simp only [PcOk, ne_eq, hs, ht] at h ⊢ <;> exact h
  · cases p <;> simp only [PcOk, ne_eq, hs, ht, h2, hb, false_and, and_false, or_false, or_self, not_false_eq_true, true_and] at h ⊢ <;> first | exact h | exact h.elim

theorem search_running {c : List ℝ} {u : ℝ} {k : ℕ} {st : SearchSt} :
    search c u (k + 1) st = (match roundOn (c.map some) u 0 st with | .done (.row i) => .row i | .seek _ st' => search c u k st' | _ => .ub) := by
  rw [search]
  unfold roundOn hereOn here rd
  by_cases h0 : st.cur = 0
  · simp only [h0, if_true]
    cases c[0]? <;> rfl
  · simp only [h0, if_false, elt_map]
    cases h1 : c[st.cur]? with
    | none => simp
    | some a =>
      cases h2 : c[st.cur - 1]? with
      | none => simp
      | some b =>
        cases h3 : c[0]? with
        | none =>
          have : c = [] := by cases c with | nil => rfl | cons x y => simp at h3
          subst this; simp at h1
        | some z =>
          show (if u ≤ a ∧ b < u then _ else _) = _
          simp only
          by_cases c1 : u ≤ a ∧ b < u
          · simp [c1]
          · by_cases c2 : (turn u a b st).cur = 0 ∧ u ≤ z
            · simp [c1, c2]
            · simp [c1, c2]

/-- The rounds that the search still needs. -/
noncomputable def need (c : List ℝ) (u : ℝ) (st : SearchSt) : ℕ := sInf {k | search c u k st ≠ .running}

theorem need_le {c : List ℝ} {u : ℝ} {k : ℕ} {st : SearchSt} (h : search c u k st ≠ .running) : need c u st ≤ k := Nat.sInf_le h

theorem need_spec {c : List ℝ} {u : ℝ} {k : ℕ} {st : SearchSt} (h : search c u k st ≠ .running) : search c u (need c u st) st ≠ .running :=
  Nat.sInf_mem (s := {k | search c u k st ≠ .running}) ⟨k, h⟩

/-- A round in the midst of a search that ends. -/
theorem round_ok {c : List ℝ} {u : ℝ} {k i : ℕ} {st : SearchSt} (h : search c u k st = .row i) :
    roundOn (c.map some) u 0 st = .done (.row i) ∨
      ∃ st', roundOn (c.map some) u 0 st = .seek 0 st' ∧ search c u (k - 1) st' = .row i ∧ need c u st' < need c u st := by
  have hne : search c u k st ≠ .running := by rw [h]; simp
  have hn := need_spec hne
  cases k with
  | zero => simp [search] at h
  | succ k =>
    rw [search_running] at h
    cases hk : need c u st with
    | zero => rw [hk] at hn; simp [search] at hn
    | succ q =>
      rw [hk, search_running] at hn
      have hform : roundOn (c.map some) u 0 st = .ub ∨ (∃ r, roundOn (c.map some) u 0 st = .done (.row r)) ∨ ∃ st', roundOn (c.map some) u 0 st = .seek 0 st' := by
        unfold roundOn
        split
        · exact .inl rfl
        · split_ifs
          · exact .inr (.inl ⟨_, rfl⟩)
          · exact .inr (.inl ⟨_, rfl⟩)
          · exact .inr (.inr ⟨_, rfl⟩)
      rcases hform with e | ⟨r, e⟩ | ⟨st', e⟩
      · rw [e] at h; simp at h
      · rw [e] at h; simp at h; left; rw [e, h]
      · right
        rw [e] at h hn
        refine ⟨st', e, h, ?_⟩
        exact Nat.lt_succ_of_le (need_le hn)

/-- How many steps a thread still has before it, at most. -/
noncomputable def rank (ws : List ℝ) (j : Job) : Pc → ℕ
  | .start => 3 * ws.length + 14
  | .looked _ => 3 * ws.length + 13
  | .inSetup _ => 3 * ws.length + 12
  | .ready _ => 3 * ws.length + 11
  | .inTwo _ => 3 * ws.length + 10
  | .fill _ _ i => 2 * ws.length + 8 + (ws.length - i) + 1
  | .scale _ _ i _ => ws.length + 7 + (ws.length - i) + 1
  | .leave _ => ws.length + 6
  | .check _ => ws.length + 5
  | .seek _ st => match j with | .draw u => need (fin ws) u st + 1 | .cdf _ => 0
  | .sum _ i _ => ws.length - i + 1
  | .done _ => 0
  | .ub => 0

/-- What makes a call sensible: the uniform number is in [0, 1); the row that the CDF is asked for is one of the data. -/
def Job.valid (ws : List ℝ) : Job → Prop
  | .draw u => 0 ≤ u ∧ u < 1
  | .cdf e => e < ws.length

/-- What a step must leave. -/
structure Moved (ws : List ℝ) (n : ℕ) (jobs : ℕ → Job) (ph : Phase) (m : Mem) (t : ℕ) (p : Pc) (m' : Mem) (p' : Pc) (ph' : Phase) : Prop where
  mem : MemOk ws n jobs ph' m'
  pc : PcOk ws ph' m'.setup m'.two t (jobs t) p'
  setup : ∀ t' ≠ t, (m'.setup = some t' ↔ m.setup = some t')
  two : ∀ t' ≠ t, (m'.two = some t' ↔ m.two = some t')
  phase : ph' = ph ∨ (m.two = some t ∧ ph ≠ .built)
  less : rank ws (jobs t) p' < rank ws (jobs t) p

theorem MemOk.buf {ws : List ℝ} {n : ℕ} {jobs : ℕ → Job} {ph : Phase} {m : Mem} (h : MemOk ws n jobs ph m) : m.buf 0 = vecOf ws ph := by
  simp [Mem.buf, h.vec]

/-- The same memory, but for the critical sections. -/
theorem MemOk.locks {ws : List ℝ} {n : ℕ} {jobs : ℕ → Job} {ph : Phase} {m : Mem} (h : MemOk ws n jobs ph m) {a b : Option ℕ}
    (ha : ∀ x, a = some x → x < n) (hb : ∀ x, b = some x → x < n) (hh : ∀ x, ph.holder = some x → b = some x) :
    MemOk ws n jobs ph { m with setup := a, two := b } :=
  ⟨h.cur, h.vec, h.err, h.builds, h.draws, hh, hb, ha⟩

/-- On to the next phase. -/
theorem MemOk.next {ws : List ℝ} {n : ℕ} {jobs : ℕ → Job} {ph ph' : Phase} {m m' : Mem} (h : MemOk ws n jobs ph m) (hb : ph ≠ .built)
    (h1 : m'.cur = m.cur) (h2 : m'.slots 0 = .live ⟨vecOf ws ph'⟩) (h3 : m'.err = errOf ws ph') (h4 : m'.builds = buildsOf ph') (h5 : ∀ x, ph'.holder = some x → m.two = some x)
    (h6 : m'.two = m.two) (h7 : m'.setup = m.setup) : MemOk ws n jobs ph' m' :=
  ⟨h1.trans h.cur, h2, h3, h4, fun _ => h.draws hb, fun x hx => h6 ▸ h5 x hx, fun x hx => h.two x (h6 ▸ hx), fun x hx => h.setup x (h7 ▸ hx)⟩

theorem put_slot (m : Mem) (c : ℕ) (b : List (Option ℝ)) : (m.put c b).slots c = .live ⟨some b⟩ := by simp [Mem.put]

section
variable {ws : List ℝ} {n : ℕ} {jobs : ℕ → Job} {ph : Phase} {m : Mem} {t : ℕ}

theorem moved_enter (hm : MemOk ws n jobs ph m) (hp : PcOk ws ph m.setup m.two t (jobs t) (.inTwo 0)) :
    ∃ ph', Moved ws n jobs ph m t (.inTwo 0) (enter ws.length m 0).1 (enter ws.length m 0).2 ph' := by
  obtain ⟨-, hs, hc⟩ := hp
  cases ph with
  | null =>
    have hv := hm.vec
    rcases hc with ⟨hd, ht, -⟩ | ⟨_, _, h⟩
    · have e : enter ws.length m 0 = ({ m.put 0 (List.replicate ws.length none) with builds := m.builds + 1 }, .fill 0 0 0) := by
        simp [enter, hv, vecOf, hm.cur]
      rw [e]
      refine ⟨.fill t 0, ?_, ?_, fun _ _ => Iff.rfl, fun _ _ => Iff.rfl, .inr ⟨ht, by simp⟩, ?_⟩
      · refine hm.next (by simp) rfl ?_ ?_ ?_ ?_ rfl rfl
        · simp [Mem.put, vecOf, part_zero]
        · have := hm.err; simpa [Mem.put, errOf] using this
        · have := hm.builds; simp only [buildsOf] at this ⊢; omega
        · intro x hx; simp only [Phase.holder, Option.some.injEq] at hx; rw [← hx]; exact ht
      · exact ⟨rfl, rfl, hs, hd, ht, rfl, by simp⟩
      · simp only [rank]; omega
    · simp at h
  | fill h i => rcases hc with ⟨_, _, h⟩ | ⟨_, _, h⟩ <;> simp [Phase.holder] at h
  | scale h i => rcases hc with ⟨_, _, h⟩ | ⟨_, _, h⟩ <;> simp [Phase.holder] at h
  | built =>
    have hv := hm.vec
    have e : enter ws.length m 0 = (m, .leave 0) := by
      by_cases h0 : ws.sum = 0 <;> simp [enter, hv, vecOf, h0]
    rw [e]
    refine ⟨.built, hm, ⟨rfl, hs, ?_, rfl⟩, fun _ _ => Iff.rfl, fun _ _ => Iff.rfl, .inl rfl, ?_⟩
    · rcases hc with ⟨h1, h2, _⟩ | ⟨h1, h2, _⟩
      · simp [h1, h2]
      · simp [h1, h2]
    · simp only [rank]; omega

theorem moved_fill (hne : ws ≠ []) (hm : MemOk ws n jobs ph m) {i : ℕ} (hp : PcOk ws ph m.setup m.two t (jobs t) (.fill 0 0 i)) :
    ∃ ph', Moved ws n jobs ph m t (.fill 0 0 i) (fillStep ws m 0 0 i).1 (fillStep ws m 0 0 i).2 ph' := by
  obtain ⟨-, -, hs, hd, ht, rfl, hi⟩ := hp
  have hb := hm.buf
  simp only [vecOf] at hb
  unfold fillStep
  simp only [hb]
  by_cases hlt : i < ws.length
  · rw [if_pos hlt]
    obtain ⟨x, hx⟩ : ∃ x, (cumul 0 ws)[i]? = some x := ⟨_, cumul_get 0 ws i hlt⟩
    rw [cell_part ws hlt, hx]
    simp only [part_set ws hlt hx]
    refine ⟨.fill t (i + 1), ?_, ⟨rfl, rfl, hs, hd, ht, rfl, hlt⟩, fun _ _ => Iff.rfl, fun _ _ => Iff.rfl, .inr ⟨ht, by simp⟩, ?_⟩
    · refine hm.next (by simp) rfl (put_slot _ _ _) hm.err hm.builds ?_ rfl rfl
      intro x hx; simp only [Phase.holder, Option.some.injEq] at hx; rw [← hx]; exact ht
    · simp only [rank]; omega
  · have he : i = ws.length := by omega
    subst he
    rw [if_neg hlt]
    unfold total
    rw [elt_last ws hne]
    simp only
    by_cases h0 : ws.sum = 0
    · rw [if_pos h0]
      refine ⟨.built, ?_, ⟨rfl, hs, by simp [ht, hd], rfl⟩, fun _ _ => Iff.rfl, fun _ _ => Iff.rfl, .inr ⟨ht, by simp⟩, ?_⟩
      · refine hm.next (by simp) rfl ?_ ?_ hm.builds ?_ rfl rfl
        · simpa [vecOf, h0] using hm.vec
        · simp [errOf, h0]
        · intro x hx; simp [Phase.holder] at hx
      · simp only [rank]; omega
    · rw [if_neg h0]
      refine ⟨.scale t 0, ?_, ⟨rfl, rfl, hs, hd, ht, rfl, by omega, rfl, h0⟩, fun _ _ => Iff.rfl, fun _ _ => Iff.rfl, .inr ⟨ht, by simp⟩, ?_⟩
      · refine hm.next (by simp) rfl ?_ hm.err hm.builds ?_ rfl rfl
        · have := hm.vec; simpa [vecOf, part_all, scal_zero] using this
        · intro x hx; simp only [Phase.holder, Option.some.injEq] at hx; rw [← hx]; exact ht
      · simp only [rank]; omega

theorem moved_scale (hm : MemOk ws n jobs ph m) {i : ℕ} {f : ℝ} (hp : PcOk ws ph m.setup m.two t (jobs t) (.scale 0 0 i f)) :
    ∃ ph', Moved ws n jobs ph m t (.scale 0 0 i f) (scaleStep ws m 0 0 i f).1 (scaleStep ws m 0 0 i f).2 ph' := by
  obtain ⟨-, -, hs, hd, ht, rfl, hi, rfl, h0⟩ := hp
  have hb := hm.buf
  simp only [vecOf] at hb
  unfold scaleStep
  simp only [hb]
  by_cases hlt : i < ws.length
  · rw [if_pos hlt]
    obtain ⟨x, hx⟩ : ∃ x, (cumul 0 ws)[i]? = some x := ⟨_, cumul_get 0 ws i hlt⟩
    obtain ⟨h1, h2⟩ := scal_set ws hlt hx
    rw [h1]
    simp only [h2]
    refine ⟨.scale t (i + 1), ?_, ⟨rfl, rfl, hs, hd, ht, rfl, hlt, rfl, h0⟩, fun _ _ => Iff.rfl, fun _ _ => Iff.rfl, .inr ⟨ht, by simp⟩, ?_⟩
    · refine hm.next (by simp) rfl (put_slot _ _ _) hm.err hm.builds ?_ rfl rfl
      intro x hx; simp only [Phase.holder, Option.some.injEq] at hx; rw [← hx]; exact ht
    · simp only [rank]; omega
  · have he : i = ws.length := by omega
    subst he
    rw [if_neg hlt]
    refine ⟨.built, ?_, ⟨rfl, hs, by simp [ht, hd], rfl⟩, fun _ _ => Iff.rfl, fun _ _ => Iff.rfl, .inr ⟨ht, by simp⟩, ?_⟩
    · refine hm.next (by simp) rfl ?_ ?_ hm.builds ?_ rfl rfl
      · have := hm.vec; simpa [vecOf, scal_all, h0] using this
      · have := hm.err; simpa [errOf, h0] using this
      · intro x hx; simp [Phase.holder] at hx
    · simp only [rank]; omega

theorem fin_get {i : ℕ} (hi : i < ws.length) : (fin ws)[i]? = some (cumShare ws (i + 1)) := by
  unfold fin
  rw [List.getElem?_map, cumul_get _ _ _ hi]
  simp only [Option.map_some, cumShare, zero_add]
  congr 1; ring

theorem draw_ends (hne : ws ≠ []) (h0 : ws.sum ≠ 0) {u : ℝ} (hu : u < 1) : ∃ i, drawRow (fin ws) u (ws.length + 1) = .row i := by
  have hl := List.length_pos_iff.2 hne
  obtain ⟨i, a, h, -⟩ := drawRow_ok (cdf := fin ws) (u := u) (by intro h; have := fin_length ws; rw [h] at this; simp at this; omega) (by
    intro x hx
    rw [fin_length, fin_get (by omega), show ws.length - 1 + 1 = ws.length by omega, cumShare_last h0] at hx
    cases hx; exact hu.le)
  rw [fin_length] at h
  exact ⟨i, h⟩

theorem start_ok {u : ℝ} {i : ℕ} (h : drawRow (fin ws) u (ws.length + 1) = .row i) :
    startOn ws.length ((fin ws).map some) u 0 = .done (.row i) ∨
      ∃ st, startOn ws.length ((fin ws).map some) u 0 = .seek 0 st ∧ search (fin ws) u (ws.length + 1) st = .row i := by
  unfold drawRow drawSized at h
  rw [fin_length] at h
  unfold startOn
  simp only [elt_map]
  by_cases h1 : (ws.length - 1) / 2 = 0
  · rw [if_pos h1] at h ⊢
    left
    by_cases h2 : ws.length ≠ 1
    · rw [if_pos h2] at h ⊢
      cases h3 : (fin ws)[0]? with
      | none => rw [h3] at h; simp at h
      | some z =>
        rw [h3] at h
        simp only at h ⊢
        split_ifs at h ⊢ <;> simp_all
    · rw [if_neg h2] at h ⊢
      simp_all
  · rw [if_neg h1] at h ⊢
    exact .inr ⟨_, rfl, h⟩

theorem moved_check (hne : ws ≠ []) (hm : MemOk ws n jobs ph m) (hv : (jobs t).valid ws) (hp : PcOk ws ph m.setup m.two t (jobs t) (.check 0)) :
    Moved ws n jobs ph m t (.check 0) m (checkStep ws m 0 (jobs t)) ph := by
  obtain ⟨-, hs, ht, rfl⟩ := hp
  have hb := hm.buf
  refine ⟨hm, ?_, fun _ _ => Iff.rfl, fun _ _ => Iff.rfl, .inl rfl, ?_⟩
  all_goals
    unfold checkStep
    rw [hm.err]
    by_cases h0 : ws.sum = 0
  · simp only [errOf, h0, decide_true, if_true]
    refine ⟨hs, ht, rfl, ?_⟩
    cases jobs t <;> exact h0
  · simp only [errOf, h0, decide_false, Bool.false_eq_true, if_false]
    simp only [vecOf, if_neg h0] at hb
    rw [hb]
    cases hj : jobs t with
    | draw u =>
      rw [hj] at hv
      obtain ⟨i, hi⟩ := draw_ends hne h0 hv.2
      simp only
      rcases start_ok hi with e | ⟨st, e, hk⟩
      · rw [e]; exact ⟨hs, ht, rfl, h0, hi⟩
      · rw [e]; exact ⟨rfl, hs, ht, rfl, h0, u, _, i, rfl, hk, hi⟩
    | cdf e =>
      rw [hj] at hv
      have hv' : e < ws.length := hv
      simp only [List.length_map, fin_length, hv', if_true]
      exact ⟨rfl, hs, ht, rfl, h0, e, rfl, by omega, hv', by simp⟩
  · simp only [errOf, h0, decide_true, if_true, rank]; omega
  · simp only [errOf, h0, decide_false, Bool.false_eq_true, if_false]
    simp only [vecOf, if_neg h0] at hb
    rw [hb]
    cases hj : jobs t with
    | draw u =>
      rw [hj] at hv
      obtain ⟨i, hi⟩ := draw_ends hne h0 hv.2
      simp only
      rcases start_ok hi with e | ⟨st, e, hk⟩
      · rw [e]; simp only [rank]; omega
      · rw [e]
        have := need_le (c := fin ws) (u := u) (k := ws.length + 1) (st := st) (by rw [hk]; simp)
        simp only [rank]; omega
    | cdf e =>
      rw [hj] at hv
      have hv' : e < ws.length := hv
      simp only [List.length_map, fin_length, hv', if_true, rank]
      omega

theorem moved_seek (hm : MemOk ws n jobs ph m) {st : SearchSt} {u : ℝ} (hj : jobs t = .draw u) (hp : PcOk ws ph m.setup m.two t (jobs t) (.seek 0 st)) :
    Moved ws n jobs ph m t (.seek 0 st) m (seekStep m 0 st u) ph := by
  obtain ⟨-, hs, ht, rfl, h0, u', k, i, hj', hk, hi⟩ := hp
  rw [hj] at hj'
  cases hj'
  have hb := hm.buf
  simp only [vecOf, if_neg h0] at hb
  have e : seekStep m 0 st u = roundOn ((fin ws).map some) u 0 st := by simp [seekStep, hb]
  rw [e]
  refine ⟨hm, ?_, fun _ _ => Iff.rfl, fun _ _ => Iff.rfl, .inl rfl, ?_⟩
  all_goals rcases round_ok hk with e | ⟨st', e, h1, h2⟩ <;> rw [e, hj]
  · exact ⟨hs, ht, rfl, h0, hi⟩
  · exact ⟨rfl, hs, ht, rfl, h0, u, _, i, rfl, h1, hi⟩
  · simp only [rank]; omega
  · simp only [rank]; omega

theorem moved_sum (hm : MemOk ws n jobs ph m) {i e : ℕ} {acc : ℝ} (hj : jobs t = .cdf e) (hp : PcOk ws ph m.setup m.two t (jobs t) (.sum 0 i acc)) :
    Moved ws n jobs ph m t (.sum 0 i acc) m (sumStep m 0 i acc e) ph := by
  obtain ⟨-, hs, ht, rfl, h0, e', hj', hie, hel, rfl⟩ := hp
  rw [hj] at hj'
  cases hj'
  have hb := hm.buf
  simp only [vecOf, if_neg h0] at hb
  have hl : i < (fin ws).length := by rw [fin_length]; omega
  have e1 : (m.buf 0).bind (elt · i) = some (fin ws)[i] := by
    rw [hb]; simp only [Option.bind_some, elt_map]; exact List.getElem?_eq_getElem hl
  unfold sumStep
  rw [e1]
  simp only [← List.sum_take_succ _ _ hl]
  refine ⟨hm, ?_, fun _ _ => Iff.rfl, fun _ _ => Iff.rfl, .inl rfl, ?_⟩
  · rw [hj]
    by_cases h : i = e
    · rw [if_pos h]; subst h; exact ⟨hs, ht, rfl, h0, rfl⟩
    · rw [if_neg h]; exact ⟨rfl, hs, ht, rfl, h0, e, rfl, by omega, hel, rfl⟩
  · by_cases h : i = e
    · rw [if_pos h]; simp only [rank]; omega
    · rw [if_neg h]; simp only [rank]; omega

end

theorem step_moved {ws : List ℝ} {n : ℕ} {jobs : ℕ → Job} {ph : Phase} {m m' : Mem} {t : ℕ} {p p' : Pc} (hne : ws ≠ []) (ht : t < n) (hv : (jobs t).valid ws)
    (hm : MemOk ws n jobs ph m) (hp : PcOk ws ph m.setup m.two t (jobs t) p) (h : step ws t m (jobs t) p = some (m', p')) :
    ∃ ph', Moved ws n jobs ph m t p m' p' ph' := by
  cases p with
  | start =>
    simp only [step, Option.some.injEq, Prod.mk.injEq] at h
    obtain ⟨rfl, rfl⟩ := h
    exact ⟨ph, hm, ⟨hm.cur, hp⟩, fun _ _ => Iff.rfl, fun _ _ => Iff.rfl, .inl rfl, by simp only [rank]; omega⟩
  | looked s =>
    obtain ⟨rfl, h1, h2⟩ := hp
    cases hj : jobs t with
    | draw u =>
      simp only [hj, step] at h
      split_ifs at h with hn
      simp only [Option.some.injEq, Prod.mk.injEq] at h
      obtain ⟨rfl, rfl⟩ := h
      refine ⟨ph, ?_, ⟨rfl, rfl, h2, by simp [hj, Job.isDraw]⟩, ?_, fun _ _ => Iff.rfl, .inl rfl, by simp only [rank]; omega⟩
      · exact hm.locks (by intro x hx; cases hx; exact ht) hm.two hm.hold
      · intro t' htt
        simp [hn, Ne.symm htt]
    | cdf e =>
      simp only [hj, step, addIfNull, Option.some.injEq, Prod.mk.injEq] at h
      obtain ⟨rfl, rfl⟩ := h
      exact ⟨ph, hm, ⟨rfl, h1, h2⟩, fun _ _ => Iff.rfl, fun _ _ => Iff.rfl, .inl rfl, by simp only [rank]; omega⟩
  | inSetup s =>
    obtain ⟨rfl, h1, h2, hd⟩ := hp
    simp only [step, addIfNull, Option.some.injEq, Prod.mk.injEq] at h
    obtain ⟨rfl, rfl⟩ := h
    refine ⟨ph, ?_, ⟨rfl, by simp, h2⟩, ?_, fun _ _ => Iff.rfl, .inl rfl, by simp only [rank]; omega⟩
    · exact hm.locks (by intro x hx; cases hx) hm.two hm.hold
    · intro t' htt
      simp [h1, Ne.symm htt]
  | ready s =>
    obtain ⟨rfl, h1, h2⟩ := hp
    cases hj : jobs t with
    | draw u =>
      simp only [hj, step] at h
      split_ifs at h with hn
      simp only [Option.some.injEq, Prod.mk.injEq] at h
      obtain ⟨rfl, rfl⟩ := h
      have hh : ph.holder = none := by
        cases hx : ph.holder with
        | none => rfl
        | some x => have := hm.hold x hx; rw [hn] at this; cases this
      refine ⟨ph, ?_, ⟨rfl, h1, .inl ⟨by simp [hj, Job.isDraw], rfl, hh⟩⟩, fun _ _ => Iff.rfl, ?_, .inl rfl, by simp only [rank]; omega⟩
      · exact hm.locks hm.setup (by intro x hx; cases hx; exact ht) (by intro x hx; rw [hh] at hx; cases hx)
      · intro t' htt
        simp [hn, Ne.symm htt]
    | cdf e =>
      simp only [hj, step, Option.some.injEq, Prod.mk.injEq] at h
      obtain ⟨rfl, rfl⟩ := h
      have hb : ph = .built := by
        apply Classical.byContradiction
        intro hb
        have := hm.draws hb t ht
        simp [hj, Job.isDraw] at this
      exact ⟨ph, hm, ⟨rfl, h1, .inr ⟨by simp [hj, Job.isDraw], h2, hb⟩⟩, fun _ _ => Iff.rfl, fun _ _ => Iff.rfl, .inl rfl, by simp only [rank]; omega⟩
  | inTwo s =>
    obtain rfl : s = 0 := hp.1
    simp only [step, Option.some.injEq] at h
    have := moved_enter hm hp
    rw [h] at this
    exact this
  | fill s c i =>
    obtain rfl : s = 0 := hp.1
    obtain rfl : c = 0 := hp.2.1
    simp only [step, Option.some.injEq] at h
    have := moved_fill hne hm hp
    rw [h] at this
    exact this
  | scale s c i f =>
    obtain rfl : s = 0 := hp.1
    obtain rfl : c = 0 := hp.2.1
    simp only [step, Option.some.injEq] at h
    have := moved_scale hm hp
    rw [h] at this
    exact this
  | leave s =>
    obtain ⟨rfl, h1, h2, rfl⟩ := hp
    cases hj : jobs t with
    | draw u =>
      simp only [hj, step, Option.some.injEq, Prod.mk.injEq] at h
      obtain ⟨rfl, rfl⟩ := h
      have h2' : m.two = some t := h2.2 (by simp [hj, Job.isDraw])
      refine ⟨.built, ?_, ⟨rfl, h1, by simp, rfl⟩, fun _ _ => Iff.rfl, ?_, .inl rfl, by simp only [rank]; omega⟩
      · exact hm.locks hm.setup (by intro x hx; cases hx) (by intro x hx; simp [Phase.holder] at hx)
      · intro t' htt
        simp [h2', Ne.symm htt]
    | cdf e =>
      simp only [hj, step, Option.some.injEq, Prod.mk.injEq] at h
      obtain ⟨rfl, rfl⟩ := h
      refine ⟨.built, hm, ⟨rfl, h1, ?_, rfl⟩, fun _ _ => Iff.rfl, fun _ _ => Iff.rfl, .inl rfl, by simp only [rank]; omega⟩
      rw [ne_eq, h2]; simp [hj, Job.isDraw]
  | check s =>
    obtain rfl : s = 0 := hp.1
    have e : step ws t m (jobs t) (.check 0) = some (m, checkStep ws m 0 (jobs t)) := by cases jobs t <;> rfl
    rw [e] at h
    simp only [Option.some.injEq, Prod.mk.injEq] at h
    obtain ⟨rfl, rfl⟩ := h
    exact ⟨ph, moved_check hne hm hv hp⟩
  | seek s st =>
    obtain rfl : s = 0 := hp.1
    obtain ⟨-, -, -, -, -, u, k, i, hj, -⟩ := id hp
    rw [hj] at h
    simp only [step, Option.some.injEq, Prod.mk.injEq] at h
    obtain ⟨rfl, rfl⟩ := h
    exact ⟨ph, moved_seek hm hj hp⟩
  | sum s i acc =>
    obtain rfl : s = 0 := hp.1
    obtain ⟨-, -, -, -, -, e, hj, -⟩ := id hp
    rw [hj] at h
    simp only [step, Option.some.injEq, Prod.mk.injEq] at h
    obtain ⟨rfl, rfl⟩ := h
    exact ⟨ph, moved_sum hm hj hp⟩
  | done o => cases hj : jobs t <;> simp [hj, step] at h
  | ub => exact hp.elim

/-- The invariant of the whole program. -/
def Ok (ws : List ℝ) (n : ℕ) (jobs : ℕ → Job) (s : Sys) : Prop :=
  ∃ ph, MemOk ws n jobs ph s.mem ∧ ∀ t < n, PcOk ws ph s.mem.setup s.mem.two t (jobs t) (s.pc t)

/-- All the steps that are left. -/
noncomputable def work (ws : List ℝ) (n : ℕ) (jobs : ℕ → Job) (s : Sys) : ℕ := ((List.range n).map fun t => rank ws (jobs t) (s.pc t)).sum

theorem sum_lt_of_one {f g : ℕ → ℕ} {n t : ℕ} (ht : t < n) (h1 : f t < g t) (h2 : ∀ x, x ≠ t → f x = g x) : ((List.range n).map f).sum < ((List.range n).map g).sum := by
  induction n with
  | zero => omega
  | succ n ih =>
    rw [List.range_succ]
    simp only [List.map_append, List.sum_append, List.map_cons, List.map_nil, List.sum_cons, List.sum_nil]
    by_cases he : t = n
    · subst he
      have : (List.range t).map f = (List.range t).map g := List.map_congr_left fun x hx => h2 x (by have := List.mem_range.1 hx; omega)
      rw [this]; omega
    · have := ih (by omega)
      rw [h2 n (by omega)]; omega

theorem pick_ok {ws : List ℝ} {n : ℕ} {jobs : ℕ → Job} {s : Sys} (hne : ws ≠ []) (hv : ∀ t < n, (jobs t).valid ws) (h : Ok ws n jobs s) (t : ℕ) :
    Ok ws n jobs (pick ws n jobs s t) ∧ (t < n → step ws t s.mem (jobs t) (s.pc t) ≠ none → work ws n jobs (pick ws n jobs s t) < work ws n jobs s) ∧
      (¬ (t < n ∧ step ws t s.mem (jobs t) (s.pc t) ≠ none) → pick ws n jobs s t = s) := by
  unfold pick
  by_cases ht : t < n
  · rw [if_pos ht]
    cases hs : step ws t s.mem (jobs t) (s.pc t) with
    | none => exact ⟨h, fun _ h => absurd rfl h, fun _ => rfl⟩
    | some q =>
      obtain ⟨m', p'⟩ := q
      obtain ⟨ph, hm, hp⟩ := h
      obtain ⟨ph', hM⟩ := step_moved hne ht (hv t ht) hm (hp t ht) hs
      refine ⟨⟨ph', hM.mem, ?_⟩, fun _ _ => ?_, fun hc => absurd ⟨ht, by simp⟩ hc⟩
      · intro t' ht'
        simp only
        by_cases he : t' = t
        · subst he; rw [if_pos rfl]; exact hM.pc
        · rw [if_neg he]
          refine (hp t' ht').other (hM.setup t' he) (hM.two t' he) ?_
          rcases hM.phase with h | ⟨h1, h2⟩
          · exact .inl h
          · refine .inr ⟨?_, h2⟩
            rw [h1]; simp [Ne.symm he]
      · refine sum_lt_of_one ht ?_ ?_
        · simp only [if_true]; exact hM.less
        · intro x hx; simp only [if_neg hx]
  · rw [if_neg ht]
    exact ⟨h, fun h => absurd h ht, fun _ => rfl⟩

theorem run_ok {ws : List ℝ} {n : ℕ} {jobs : ℕ → Job} (hne : ws ≠ []) (hv : ∀ t < n, (jobs t).valid ws) :
    ∀ (σ : List ℕ) {s : Sys}, Ok ws n jobs s → Ok ws n jobs (runSched ws n jobs s σ) ∧ work ws n jobs (runSched ws n jobs s σ) ≤ work ws n jobs s := by
  intro σ
  induction σ with
  | nil => intro s h; exact ⟨h, le_rfl⟩
  | cons t σ ih =>
    intro s h
    obtain ⟨h1, h2, h3⟩ := pick_ok hne hv h t
    obtain ⟨h4, h5⟩ := ih h1
    refine ⟨h4, le_trans h5 ?_⟩
    by_cases hc : t < n ∧ step ws t s.mem (jobs t) (s.pc t) ≠ none
    · exact (h2 hc.1 hc.2).le
    · rw [h3 hc]

theorem fresh_ok {ws : List ℝ} {n : ℕ} {jobs : ℕ → Job} (hd : ∀ t < n, (jobs t).isDraw) : Ok ws n jobs fresh :=
  ⟨.null, ⟨rfl, rfl, rfl, rfl, fun _ => hd, by simp [Phase.holder], by simp [fresh], by simp [fresh]⟩, fun t _ => ⟨by simp [fresh], by simp [fresh]⟩⟩

theorem warm_ok {ws : List ℝ} {n : ℕ} {jobs : ℕ → Job} (h0 : ws.sum ≠ 0) : Ok ws n jobs (warm (fin ws)) :=
  ⟨.built, ⟨rfl, by simp [warm, vecOf, h0], by simp [warm, errOf, h0], rfl, fun h => absurd rfl h, by simp [Phase.holder], by simp [warm], by simp [warm]⟩,
    fun t _ => ⟨by simp [warm], by simp [warm]⟩⟩

theorem setupCmf_fin {ws : List ℝ} (hne : ws ≠ []) (h0 : ws.sum ≠ 0) : setupCmf ws = .ok (some (fin ws)) := by
  match ws, hne with
  | w :: ws, _ =>
    unfold setupCmf fin
    simp only [cumul_last, if_neg h0]
    rw [cumul_zero_cons]

theorem isRow_of {ws : List ℝ} (hw : ∀ w ∈ ws, 0 ≤ w) (hs : 0 < ws.sum) {u : ℝ} (h0 : 0 ≤ u) (h1 : u < 1) {i : ℕ} (h : drawRow (fin ws) u (ws.length + 1) = .row i) : IsRow ws u i := by
  have hne : ws ≠ [] := by rintro rfl; simp at hs
  obtain ⟨c, k, hc, hr, hk, ha, hz, hp⟩ := C63_row ws hw hs u h0 h1
  rw [setupCmf_fin hne hs.ne'] at hc
  cases hc
  rw [h] at hr
  cases hr
  exact ⟨hk, ha, hz, fun hu => (hp hu).1⟩

/-- The outcome of every thread that has ended, and that no thread is undefined. -/
theorem Ok.outcome {ws : List ℝ} {n : ℕ} {jobs : ℕ → Job} {s : Sys} (h : Ok ws n jobs s) {t : ℕ} (ht : t < n) :
    s.pc t ≠ .ub ∧ (∀ o, s.pc t = .done o → outOk ws (jobs t) o) ∧ s.mem.builds ≤ 1 := by
  obtain ⟨ph, hm, hp⟩ := h
  have := hp t ht
  refine ⟨?_, ?_, ?_⟩
  · intro e; rw [e] at this; exact this
  · intro o e; rw [e] at this; exact this.2.2.2
  · rw [hm.builds]; cases ph <;> simp [buildsOf]

/-- **C180 (draws in parallel).** A PMF that has its settings group, weights none of which is negative and not all zero; any number of threads each making a draw, whatever the scheduler does: nothing undefined happens (no read of an element not
yet written, no use of freed memory), every thread that has ended has got the row that its own uniform number calls for, just as if it had been alone, and the cumulative vector was made at most once. -/
theorem C180_draws (ws : List ℝ) (hw : ∀ w ∈ ws, 0 ≤ w) (hs : 0 < ws.sum) (n : ℕ) (u : ℕ → ℝ) (hu : ∀ t < n, 0 ≤ u t ∧ u t < 1) (σ : List ℕ) (t : ℕ) (ht : t < n) :
    (runSched ws n (fun i => .draw (u i)) fresh σ).pc t ≠ .ub ∧
    (∀ o, (runSched ws n (fun i => .draw (u i)) fresh σ).pc t = .done o → ∃ i, o = .row i ∧ IsRow ws (u t) i) ∧
    (runSched ws n (fun i => .draw (u i)) fresh σ).mem.builds ≤ 1 := by
  have hne : ws ≠ [] := by rintro rfl; simp at hs
  obtain ⟨h, -⟩ := run_ok (ws := ws) (n := n) (jobs := fun i => .draw (u i)) hne (fun t ht => hu t ht) σ (fresh_ok fun _ _ => trivial)
  obtain ⟨h1, h2, h3⟩ := h.outcome ht
  refine ⟨h1, fun o ho => ?_, h3⟩
  have := h2 o ho
  cases o with
  | row i => exact ⟨i, rfl, isRow_of hw hs (hu t ht).1 (hu t ht).2 this.2⟩
  | val x => exact this.elim
  | bad => exact absurd this hs.ne'

/-- **C180 (weights that sum to zero).** Every thread that has ended has got the error return, under every schedule. -/
theorem C180_bad_density (ws : List ℝ) (hne : ws ≠ []) (hs : ws.sum = 0) (n : ℕ) (u : ℕ → ℝ) (hu : ∀ t < n, 0 ≤ u t ∧ u t < 1) (σ : List ℕ) (t : ℕ) (ht : t < n) :
    (runSched ws n (fun i => .draw (u i)) fresh σ).pc t ≠ .ub ∧ (∀ o, (runSched ws n (fun i => .draw (u i)) fresh σ).pc t = .done o → o = .bad) := by
  obtain ⟨h, -⟩ := run_ok (ws := ws) (n := n) (jobs := fun i => .draw (u i)) hne (fun t ht => hu t ht) σ (fresh_ok fun _ _ => trivial)
  obtain ⟨h1, h2, h3⟩ := h.outcome ht
  refine ⟨h1, fun o ho => ?_⟩
  have := h2 o ho
  cases o with
  | row i => exact absurd hs this.1
  | val x => exact this.elim
  | bad => rfl

/-- **C180 (draws and CDFs in parallel, after the vector has been made).** If one draw or CDF has been done before the threads start, any mixture of draws and CDFs is safe under every schedule, and every call gives what it gives alone (for the CDF, the
sum of the first elements of the cumulative vector: see C65 for what is wrong with that). -/
theorem C180_warm (ws : List ℝ) (hw : ∀ w ∈ ws, 0 ≤ w) (hs : 0 < ws.sum) (c : List ℝ) (hc : setupCmf ws = .ok (some c)) (n : ℕ) (jobs : ℕ → Job) (hv : ∀ t < n, (jobs t).valid ws) (σ : List ℕ) (t : ℕ) (ht : t < n) :
    (runSched ws n jobs (warm c) σ).pc t ≠ .ub ∧
    (∀ o, (runSched ws n jobs (warm c) σ).pc t = .done o →
      (∀ u, jobs t = .draw u → ∃ i, o = .row i ∧ IsRow ws u i) ∧ (∀ e, jobs t = .cdf e → o = .val (c.take (e + 1)).sum)) ∧
    (runSched ws n jobs (warm c) σ).mem.builds ≤ 1 := by
  have hne : ws ≠ [] := by rintro rfl; simp at hs
  rw [setupCmf_fin hne hs.ne'] at hc
  cases hc
  obtain ⟨h, -⟩ := run_ok (ws := ws) (n := n) (jobs := jobs) hne hv σ (warm_ok hs.ne')
  obtain ⟨h1, h2, h3⟩ := h.outcome ht
  refine ⟨h1, fun o ho => ⟨fun u hj => ?_, fun e hj => ?_⟩, h3⟩
  · have := h2 o ho
    have hv' := hv t ht
    rw [hj] at this hv'
    cases o with
    | row i => exact ⟨i, rfl, isRow_of hw hs hv'.1 hv'.2 this.2⟩
    | val x => exact this.elim
    | bad => exact absurd this hs.ne'
  · have := h2 o ho
    rw [hj] at this
    cases o with
    | row i => exact this.elim
    | val x => rw [this.2]
    | bad => exact absurd this hs.ne'

/-- As long as a thread has not ended, one of them can move. -/
theorem Ok.moves {ws : List ℝ} {n : ℕ} {jobs : ℕ → Job} {s : Sys} (h : Ok ws n jobs s) {t : ℕ} (ht : t < n) (hd : ∀ o, s.pc t ≠ .done o) :
    ∃ t' < n, step ws t' s.mem (jobs t') (s.pc t') ≠ none := by
  obtain ⟨ph, hm, hp⟩ := h
  cases h2 : s.mem.two with
  | some x =>
    refine ⟨x, hm.two x h2, ?_⟩
    have := hp x (hm.two x h2)
    revert this
    cases s.pc x <;> intro this <;> simp only [PcOk, h2, not_true_eq_false, ne_eq, and_false, false_and, or_false] at this <;> cases hj : jobs x <;> simp [step, hj]
  | none =>
    cases h1 : s.mem.setup with
    | some x =>
      refine ⟨x, hm.setup x h1, ?_⟩
      have := hp x (hm.setup x h1)
      revert this
      cases s.pc x <;> intro this <;> simp only [PcOk, h1, not_true_eq_false, ne_eq, and_false, false_and, or_false] at this <;> cases hj : jobs x <;> simp [step, hj]
    | none =>
      refine ⟨t, ht, ?_⟩
      have := hp t ht
      revert this hd
      cases s.pc t <;> intro hd this <;> cases hj : jobs t <;> simp_all [step, PcOk]

/-- A stretch of the schedule in which every thread gets a turn does some of the work. -/
theorem block_works {ws : List ℝ} {n : ℕ} {jobs : ℕ → Job} (hne : ws ≠ []) (hv : ∀ t < n, (jobs t).valid ws) {t : ℕ} (ht : t < n) :
    ∀ (b : List ℕ) {s : Sys}, Ok ws n jobs s → t ∈ b → step ws t s.mem (jobs t) (s.pc t) ≠ none → work ws n jobs (runSched ws n jobs s b) < work ws n jobs s := by
  intro b
  induction b with
  | nil => intro s h hb; simp at hb
  | cons x b ih =>
    intro s h hb hstep
    obtain ⟨h1, h2, h3⟩ := pick_ok hne hv h x
    by_cases hc : x < n ∧ step ws x s.mem (jobs x) (s.pc x) ≠ none
    · exact lt_of_le_of_lt (run_ok hne hv b h1).2 (h2 hc.1 hc.2)
    · have he := h3 hc
      have hxt : x ≠ t := by rintro rfl; exact hc ⟨ht, hstep⟩
      show work ws n jobs (runSched ws n jobs (pick ws n jobs s x) b) < _
      rw [he]
      exact ih h (by simpa [Ne.symm hxt] using hb) hstep

theorem ends_of_ok {ws : List ℝ} {n : ℕ} {jobs : ℕ → Job} (hne : ws ≠ []) (hv : ∀ t < n, (jobs t).valid ws) :
    ∀ (blocks : List (List ℕ)) {s : Sys}, Ok ws n jobs s → (∀ b ∈ blocks, ∀ t < n, t ∈ b) → work ws n jobs s ≤ blocks.length →
      ∀ t < n, ∃ o, (runSched ws n jobs s blocks.flatten).pc t = .done o := by
  intro blocks
  induction blocks with
  | nil =>
    intro s h _ hw t ht
    apply Classical.byContradiction
    intro hd
    obtain ⟨t', ht', hm⟩ := h.moves ht (fun o ho => hd ⟨o, ho⟩)
    have := block_works hne hv ht' [t'] h (by simp) hm
    simp at hw
    omega
  | cons b bs ih =>
    intro s h hb hw t ht
    have hrun : runSched ws n jobs s (b :: bs).flatten = runSched ws n jobs (runSched ws n jobs s b) bs.flatten := by
      simp [runSched, List.foldl_append]
    rw [hrun]
    have hok := (run_ok hne hv b h).1
    refine ih hok (fun b' hb' => hb b' (by simp [hb'])) ?_ t ht
    by_cases hall : ∀ t < n, ∃ o, s.pc t = .done o
    · have h0 : work ws n jobs s = 0 := by
        unfold work
        rw [List.sum_eq_zero_iff]
        intro x hx
        obtain ⟨i, hi, rfl⟩ := List.mem_map.1 hx
        obtain ⟨o, ho⟩ := hall i (List.mem_range.1 hi)
        rw [ho]; rfl
      have := (run_ok hne hv b h).2
      omega
    · push Not at hall
      obtain ⟨x, hx, hd⟩ := hall
      obtain ⟨t', ht', hm⟩ := h.moves hx hd
      have := block_works hne hv ht' b h (hb b (by simp) t' ht') hm
      simp at hw
      omega

/-- **C180 (no deadlock, and the end is reached).** There is a number of turns, depending only on how many rows and threads there are, such that however the scheduler works, once every thread has been given so many turns all have ended: `blocks` is
any way of running in which each stretch lets every thread at least try. -/
theorem C180_ends (ws : List ℝ) (hne : ws ≠ []) (n : ℕ) (u : ℕ → ℝ) (hu : ∀ t < n, 0 ≤ u t ∧ u t < 1) (blocks : List (List ℕ)) (hb : ∀ b ∈ blocks, ∀ t < n, t ∈ b)
    (hlen : n * (3 * ws.length + 14) ≤ blocks.length) (t : ℕ) (ht : t < n) : ∃ o, (runSched ws n (fun i => .draw (u i)) fresh blocks.flatten).pc t = .done o := by
  refine ends_of_ok (jobs := fun i => .draw (u i)) hne (fun t ht => hu t ht) blocks (fresh_ok fun _ _ => trivial) hb ?_ t ht
  have : work ws n (fun i => .draw (u i)) fresh = n * (3 * ws.length + 14) := by simp [work, fresh, rank]
  omega

/-- A case: two rows and two threads, taking turns: both end. -/
example : ∃ o, (runSched [1, 3] 2 (fun i => .draw (if i = 0 then 1 / 8 else 1 / 2)) fresh (List.replicate 40 [0, 1]).flatten).pc 1 = .done o := by
  refine C180_ends [1, 3] (by simp) 2 _ ?_ _ ?_ (by simp) 1 (by omega)
  · intro t _
    split_ifs <;> norm_num
  · intro b hb t ht
    obtain rfl := List.eq_of_mem_replicate hb
    have : t = 0 ∨ t = 1 := by omega
    simpa using this

example : IsRow [1, 3] (1 / 2) 1 := ⟨by simp, by simp [cumShare]; norm_num, by norm_num, fun _ => by simp [cumShare]; norm_num⟩

/-- **C180 (no group at first: refuted).** If the model has no settings group of its own (its data were put in by hand, with no estimation), two threads may both find none, both add one, and the second addition frees the first one's block, which the
first thread then reads. The critical section is around the addition, not around the look-up. -/
theorem C180_bare_refuted (ws : List ℝ) (u : ℕ → ℝ) : (runSched ws 2 (fun i => .draw (u i)) bare [0, 1, 0, 0, 1, 1, 0, 0]).pc 0 = .ub := by
  simp [runSched, pick, step, bare, addIfNull, Mem.add, Mem.drop, enter]

/-- One thread alone has no such trouble, nor have two that come after one another. -/
theorem C180_bare_alone (ws : List ℝ) (u : ℕ → ℝ) : ∃ i, (runSched ws 2 (fun i => .draw (u i)) bare [0, 0, 0, 0, 0]).pc 0 = .fill 0 0 i ∧
    (runSched ws 2 (fun i => .draw (u i)) bare [0, 0, 0, 1, 1, 1]).pc 1 = .ready 0 :=
  ⟨0, by simp [runSched, pick, step, bare, addIfNull, Mem.add, Mem.drop, enter, Mem.put], by simp [runSched, pick, step, bare, addIfNull, Mem.add, Mem.drop]⟩

/-- **C180 (CDFs in parallel: refuted).** The CDF has no critical sections: of two threads asking at once, the second finds the vector of the first allocated and not filled, and sums what has not been written. -/
theorem C180_cdf_refuted (ws : List ℝ) (hne : ws ≠ []) : (runSched ws 2 (fun _ => .cdf 0) fresh [0, 0, 0, 0, 1, 1, 1, 1, 1, 1, 1]).pc 1 = .ub := by
  have hl := List.length_pos_iff.2 hne
  simp [runSched, pick, step, fresh, addIfNull, enter, Mem.put, checkStep, Mem.buf, sumStep, elt, hl]

/-- **C180 (a CDF beside a draw: refuted).** That the draw is inside its critical section does not help. -/
theorem C180_cdf_draw_refuted (ws : List ℝ) (hne : ws ≠ []) (u : ℝ) :
    (runSched ws 2 (fun i => if i = 0 then .draw u else .cdf 0) fresh [0, 0, 0, 0, 0, 1, 1, 1, 1, 1, 1, 1]).pc 1 = .ub := by
  have hl := List.length_pos_iff.2 hne
  simp [runSched, pick, step, fresh, addIfNull, enter, Mem.put, checkStep, Mem.buf, sumStep, elt, hl]

end Apop.Conc
