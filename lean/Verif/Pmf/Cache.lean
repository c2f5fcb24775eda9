import Verif.Pmf.Draw

/-! # C68: the shared caches of the apop_pmf and apop_cdf settings groups; C69: whose weights a draw follows

Both groups keep something costly that is made on first use (the cumulative mass; the draws), and a counter of the groups that share it. -/

namespace Apop.Cache

/-- A settings group: the cached object, once it is made, and the counter. -/
structure Grp where
  res : Option ℕ
  ref : ℕ
  deriving DecidableEq

/-- Groups, by number; counters, by address; cached objects, by address. What has been freed is `none`, or `false`. -/
structure St where
  groups : List (Option Grp)
  counts : List (Option ℕ)
  objs : List Bool

/-- `pmf`: model/apop_pmf.c:59-74. `cdf`: apop_model.m4.c:546-561. -/
inductive Kind where
  | pmf
  | cdf
  deriving DecidableEq

/-- What a user does: add a group to a model; copy a model; draw or evaluate; free a model. -/
inductive Op where
  | init
  | copy (g : ℕ)
  | use (g : ℕ)
  | free (g : ℕ)

/-- The state after; or undefined behaviour; or an operation on a group that has been freed already or never was there, which is the user's error. -/
inductive Out where
  | ok (s : St)
  | ub
  | misuse

/-- The init functions, model/apop_pmf.c:70-74, apop_model.m4.c:546-551: a counter of one. -/
def init (s : St) : St := { s with groups := s.groups ++ [some ⟨none, s.counts.length⟩], counts := s.counts ++ [some 1] }

/-- The copy functions, model/apop_pmf.c:59-61, apop_model.m4.c:558-560: pointers are copied and the counter goes up. -/
def copy (s : St) (g : Grp) : Out :=
  match s.counts[g.ref]? with
  | some (some c) => .ok { s with groups := s.groups ++ [some g], counts := s.counts.set g.ref (some (c + 1)) }
  | _ => .ub

/-- The first use makes the object (model/apop_pmf.c:146, 280; apop_model.m4.c:533-539); later ones read it. -/
def use (s : St) (i : ℕ) (g : Grp) : Out :=
  match g.res with
  | none => .ok { s with groups := s.groups.set i (some { g with res := some s.objs.length }), objs := s.objs ++ [true] }
  | some p => if s.objs[p]? = some true then .ok s else .ub

/-- Free the object, if there is one; twice is undefined. -/
def freeObj (s : St) : Option ℕ → Out
  | none => .ok s
  | some p => if s.objs[p]? = some true then .ok { s with objs := s.objs.set p false } else .ub

/-- The free functions, model/apop_pmf.c:63-68, apop_model.m4.c:553-556. In the second the counter is not touched if nothing was made, and its memory is never freed. -/
def free (k : Kind) (s : St) (i : ℕ) (g : Grp) : Out :=
  if k = .cdf ∧ g.res = none then .ok { s with groups := s.groups.set i none }
  else
    match s.counts[g.ref]? with
    | some (some c) =>
      let s1 : St := { s with groups := s.groups.set i none, counts := s.counts.set g.ref (some (c - 1)) }
      if c - 1 = 0 then
        match freeObj s1 g.res with
        | .ok s2 => .ok (if k = .pmf then { s2 with counts := s2.counts.set g.ref none } else s2)
        | o => o
      else .ok s1
    | _ => .ub

/-- One operation. -/
def step (k : Kind) (s : St) : Op → Out
  | .init => .ok (init s)
  | .copy i => match s.groups[i]? with | some (some g) => copy s g | _ => .misuse
  | .use i => match s.groups[i]? with | some (some g) => use s i g | _ => .misuse
  | .free i => match s.groups[i]? with | some (some g) => free k s i g | _ => .misuse

/-- A history of operations. -/
def run (k : Kind) : List Op → St → Out
  | [], s => .ok s
  | o :: os, s => match step k s o with | .ok s' => run k os s' | .ub => .ub | .misuse => .misuse

/-- At the start there is nothing. -/
def start : St := ⟨[], [], []⟩

/-! ## Proofs -/

def isRef (r : ℕ) : Option Grp → Bool
  | some g => g.ref == r
  | none => false

/-- How many live groups use the counter at `r`. -/
def users (s : St) (r : ℕ) : ℕ := s.groups.countP (isRef r)

structure Inv (s : St) : Prop where
  cnt : ∀ (i : ℕ) (g : Grp), s.groups[i]? = some (some g) → ∃ c, s.counts[g.ref]? = some (some c) ∧ users s g.ref ≤ c
  obj : ∀ (i : ℕ) (g : Grp) (p : ℕ), s.groups[i]? = some (some g) → g.res = some p → s.objs[p]? = some true
  same : ∀ (i j : ℕ) (g g' : Grp) (p : ℕ), s.groups[i]? = some (some g) → s.groups[j]? = some (some g') → g.res = some p → g'.res = some p → g.ref = g'.ref

theorem inv_start : Inv start := by
  constructor <;> intros <;> simp_all [start]

theorem getElem?_append_some {α : Type} {l : List α} {a b : α} {i : ℕ} (h : (l ++ [a])[i]? = some b) : l[i]? = some b ∨ (i = l.length ∧ b = a) := by
  rcases Nat.lt_trichotomy i l.length with hi | hi | hi
  · rw [List.getElem?_append_left hi] at h; exact Or.inl h
  · subst hi; simp at h; exact Or.inr ⟨rfl, h.symm⟩
  · rw [List.getElem?_eq_none (by simp; omega)] at h; cases h

theorem getElem?_set_some {α : Type} {l : List α} {a b : α} {i j : ℕ} (h : (l.set i a)[j]? = some b) : (j = i ∧ b = a) ∨ (j ≠ i ∧ l[j]? = some b) := by
  rw [List.getElem?_set] at h
  by_cases hij : i = j
  · subst hij
    simp only [if_true] at h
    split at h
    · left; exact ⟨rfl, by simpa using h.symm⟩
    · cases h
  · rw [if_neg hij] at h; exact Or.inr ⟨fun e => hij e.symm, h⟩

theorem users_zero {s : St} {r : ℕ} (h : users s r = 0) {i : ℕ} {g : Grp} (hg : s.groups[i]? = some (some g)) : g.ref ≠ r := by
  unfold users at h
  rw [List.countP_eq_zero] at h
  have := h _ (List.mem_of_getElem? hg)
  simpa [isRef] using this

theorem users_pos {s : St} {i : ℕ} {g : Grp} (hg : s.groups[i]? = some (some g)) : 0 < users s g.ref := by
  rw [Nat.pos_iff_ne_zero]
  intro h
  exact users_zero h hg rfl

theorem users_append (gs : List (Option Grp)) (cs : List (Option ℕ)) (os : List Bool) (g : Grp) (r : ℕ) :
    users ⟨gs ++ [some g], cs, os⟩ r = gs.countP (isRef r) + if g.ref = r then 1 else 0 := by
  simp only [users, List.countP_append, List.countP_cons, List.countP_nil, isRef, beq_iff_eq]
  simp

theorem countP_set_none {gs : List (Option Grp)} {i : ℕ} {g : Grp} (h : gs[i]? = some (some g)) (r : ℕ) :
    (gs.set i none).countP (isRef r) + (if g.ref = r then 1 else 0) = gs.countP (isRef r) := by
  induction gs generalizing i with
  | nil => simp at h
  | cons x gs ih =>
    cases i with
    | zero =>
      simp only [List.getElem?_cons_zero, Option.some.injEq] at h
      subst h
      simp only [List.set_cons_zero, List.countP_cons, isRef, beq_iff_eq]
      simp
    | succ i =>
      simp only [List.getElem?_cons_succ] at h
      have := ih h
      simp only [List.set_cons_succ, List.countP_cons]
      omega

theorem countP_set_same {gs : List (Option Grp)} {i : ℕ} {g g' : Grp} (h : gs[i]? = some (some g)) (hr : g'.ref = g.ref) (r : ℕ) :
    (gs.set i (some g')).countP (isRef r) = gs.countP (isRef r) := by
  induction gs generalizing i with
  | nil => simp at h
  | cons x gs ih =>
    cases i with
    | zero =>
      simp only [List.getElem?_cons_zero, Option.some.injEq] at h
      subst h
      simp [List.countP_cons, isRef, hr]
    | succ i =>
      simp only [List.getElem?_cons_succ] at h
      simp only [List.set_cons_succ, List.countP_cons, ih h]

theorem inv_init {s : St} (hI : Inv s) : Inv (init s) := by
  have hu : ∀ r, users (init s) r = users s r + if s.counts.length = r then 1 else 0 := fun r => users_append _ _ _ _ _
  have hnew : users s s.counts.length = 0 := by
    by_contra hne
    unfold users at hne
    have hne := List.countP_pos_iff.1 (Nat.pos_of_ne_zero hne)
    obtain ⟨o, ho, hr⟩ := hne
    cases o with
    | none => simp [isRef] at hr
    | some g =>
      obtain ⟨i, hi⟩ := List.mem_iff_getElem?.1 ho
      obtain ⟨c, hc, -⟩ := hI.cnt i g hi
      have : g.ref = s.counts.length := by simpa [isRef] using hr
      rw [this, List.getElem?_eq_none (le_refl _)] at hc
      cases hc
  constructor
  · intro i g hg
    rcases getElem?_append_some hg with h | ⟨-, h⟩
    · obtain ⟨c, hc, hle⟩ := hI.cnt i g h
      have hlt : g.ref < s.counts.length := by rw [List.getElem?_eq_some_iff] at hc; exact hc.1
      refine ⟨c, ?_, ?_⟩
      · show (s.counts ++ [some 1])[g.ref]? = _
        rw [List.getElem?_append_left hlt]; exact hc
      · rw [hu, if_neg (by omega)]; exact hle
    · cases h
      refine ⟨1, ?_, ?_⟩
      · show (s.counts ++ [some 1])[s.counts.length]? = _
        simp
      · rw [hu, hnew]; simp
  · intro i g p hg hp
    rcases getElem?_append_some hg with h | ⟨-, h⟩
    · exact hI.obj i g p h hp
    · cases h; simp at hp
  · intro i j g g' p hg hg' hp hp'
    rcases getElem?_append_some hg with h | ⟨-, h⟩
    · rcases getElem?_append_some hg' with h' | ⟨-, h'⟩
      · exact hI.same i j g g' p h h' hp hp'
      · cases h'; simp at hp'
    · cases h; simp at hp

theorem inv_copy {s : St} (hI : Inv s) {k : ℕ} {g : Grp} (hk : s.groups[k]? = some (some g)) : ∃ s', copy s g = .ok s' ∧ Inv s' := by
  obtain ⟨c, hc, hle⟩ := hI.cnt k g hk
  have hlt : g.ref < s.counts.length := by rw [List.getElem?_eq_some_iff] at hc; exact hc.1
  refine ⟨⟨s.groups ++ [some g], s.counts.set g.ref (some (c + 1)), s.objs⟩, by simp only [copy, hc], ?_⟩
  have hu : ∀ r, users ⟨s.groups ++ [some g], s.counts.set g.ref (some (c + 1)), s.objs⟩ r = users s r + if g.ref = r then 1 else 0 := fun r => users_append _ _ _ _ _
  have hsrc : ∀ {i : ℕ} {x : Grp}, (s.groups ++ [some g])[i]? = some (some x) → ∃ i' : ℕ, s.groups[i']? = some (some x) := by
    intro i x h
    rcases getElem?_append_some h with h | ⟨-, h⟩
    · exact ⟨i, h⟩
    · cases h; exact ⟨k, hk⟩
  constructor
  · intro i x hx
    obtain ⟨i', hi'⟩ := hsrc hx
    obtain ⟨c', hc', hle'⟩ := hI.cnt i' x hi'
    by_cases hr : g.ref = x.ref
    · refine ⟨c + 1, ?_, ?_⟩
      · show (s.counts.set g.ref (some (c + 1)))[x.ref]? = _
        rw [← hr, List.getElem?_set_self hlt]
      · rw [hu, if_pos hr, ← hr]; omega
    · refine ⟨c', ?_, ?_⟩
      · show (s.counts.set g.ref (some (c + 1)))[x.ref]? = _
        rw [List.getElem?_set_ne hr]; exact hc'
      · rw [hu, if_neg hr]; exact hle'
  · intro i x p hx hp
    obtain ⟨i', hi'⟩ := hsrc hx
    exact hI.obj i' x p hi' hp
  · intro i j x y p hx hy hp hp'
    obtain ⟨i', hi'⟩ := hsrc hx
    obtain ⟨j', hj'⟩ := hsrc hy
    exact hI.same i' j' x y p hi' hj' hp hp'

theorem inv_use {s : St} (hI : Inv s) {k : ℕ} {g : Grp} (hk : s.groups[k]? = some (some g)) : ∃ s', use s k g = .ok s' ∧ Inv s' := by
  unfold use
  cases hres : g.res with
  | some p => exact ⟨s, by simp [hI.obj k g p hk hres], hI⟩
  | none =>
    refine ⟨_, rfl, ?_⟩
    have hu : ∀ r, users ⟨s.groups.set k (some { g with res := some s.objs.length }), s.counts, s.objs ++ [true]⟩ r = users s r :=
      fun r => countP_set_same (g' := { g with res := some s.objs.length }) hk rfl r
    have hobj : ∀ {i : ℕ} {x : Grp} {p : ℕ}, s.groups[i]? = some (some x) → x.res = some p → p < s.objs.length := by
      intro i x p hx hp
      have := hI.obj i x p hx hp
      rw [List.getElem?_eq_some_iff] at this; exact this.1
    constructor
    · intro i x hx
      have hsrc : ∃ (i' : ℕ) (x' : Grp), s.groups[i']? = some (some x') ∧ x'.ref = x.ref := by
        rcases getElem?_set_some hx with ⟨-, h⟩ | ⟨-, h⟩
        · cases h; exact ⟨k, g, hk, rfl⟩
        · exact ⟨i, x, h, rfl⟩
      obtain ⟨i', x', hx', hr⟩ := hsrc
      obtain ⟨c, hc, hle⟩ := hI.cnt i' x' hx'
      rw [hr] at hc hle
      exact ⟨c, hc, by rw [hu]; exact hle⟩
    · intro i x p hx hp
      show (s.objs ++ [true])[p]? = some true
      rcases getElem?_set_some hx with ⟨-, h⟩ | ⟨-, h⟩
      · cases h; simp only [Option.some.injEq] at hp; subst hp; simp
      · rw [List.getElem?_append_left (hobj h hp)]; exact hI.obj i x p h hp
    · intro i j x y p hx hy hp hp'
      rcases getElem?_set_some hx with ⟨-, h⟩ | ⟨-, h⟩
      · cases h
        simp only [Option.some.injEq] at hp
        rcases getElem?_set_some hy with ⟨-, h'⟩ | ⟨-, h'⟩
        · cases h'; rfl
        · have := hobj h' hp'; omega
      · rcases getElem?_set_some hy with ⟨-, h'⟩ | ⟨-, h'⟩
        · cases h'
          simp only [Option.some.injEq] at hp'
          have := hobj h hp; omega
        · exact hI.same i j x y p h h' hp hp'

theorem inv_free {s : St} (hI : Inv s) (kd : Kind) {k : ℕ} {g : Grp} (hk : s.groups[k]? = some (some g)) : ∃ s', free kd s k g = .ok s' ∧ Inv s' := by
  obtain ⟨c, hc, hle⟩ := hI.cnt k g hk
  have hpos := users_pos hk
  have hlt : g.ref < s.counts.length := by rw [List.getElem?_eq_some_iff] at hc; exact hc.1
  have hu : ∀ r, (s.groups.set k none).countP (isRef r) + (if g.ref = r then 1 else 0) = users s r := fun r => countP_set_none hk r
  have hsrc : ∀ {i : ℕ} {x : Grp}, (s.groups.set k none)[i]? = some (some x) → i ≠ k ∧ s.groups[i]? = some (some x) := by
    intro i x hx
    rcases getElem?_set_some hx with ⟨-, h⟩ | h
    · cases h
    · exact h
  unfold free
  by_cases h0 : kd = .cdf ∧ g.res = none
  · rw [if_pos h0]
    refine ⟨_, rfl, ?_⟩
    constructor
    · intro i x hx
      obtain ⟨c', hc', hle'⟩ := hI.cnt i x (hsrc hx).2
      exact ⟨c', hc', by have := hu x.ref; simp only [users] at this ⊢; unfold users at hle'; omega⟩
    · intro i x p hx hp; exact hI.obj i x p (hsrc hx).2 hp
    · intro i j x y p hx hy hp hp'; exact hI.same i j x y p (hsrc hx).2 (hsrc hy).2 hp hp'
  · rw [if_neg h0]
    simp only [hc]
    by_cases h1 : c - 1 = 0
    · simp only [h1, if_true]
      have hlast : (s.groups.set k none).countP (isRef g.ref) = 0 := by have := hu g.ref; rw [if_pos rfl] at this; omega
      have hno : ∀ {i : ℕ} {x : Grp}, (s.groups.set k none)[i]? = some (some x) → x.ref ≠ g.ref := by
        intro i x hx
        exact users_zero (s := ⟨s.groups.set k none, s.counts, s.objs⟩) hlast hx
      have key : ∀ (cs : List (Option ℕ)) (os : List Bool), (∀ r, r ≠ g.ref → cs[r]? = s.counts[r]?) →
          (∀ p, (∀ q, g.res = some q → p ≠ q) → os[p]? = s.objs[p]?) → Inv ⟨s.groups.set k none, cs, os⟩ := by
        intro cs os hcs hos
        constructor
        · intro i x hx
          obtain ⟨c', hc', hle'⟩ := hI.cnt i x (hsrc hx).2
          refine ⟨c', by rw [← hc']; exact hcs _ (hno hx), ?_⟩
          have := hu x.ref
          simp only [users] at this ⊢
          unfold users at hle'; omega
        · intro i x p hx hp
          show os[p]? = some true
          rw [hos p, hI.obj i x p (hsrc hx).2 hp]
          intro q hq hpq
          subst hpq
          exact hno hx (hI.same i k x g p (hsrc hx).2 hk hp hq)
        · intro i j x y p hx hy hp hp'; exact hI.same i j x y p (hsrc hx).2 (hsrc hy).2 hp hp'
      cases hres : g.res with
      | none =>
        have hk' : kd = .pmf := by
          cases kd with
          | pmf => rfl
          | cdf => exact absurd ⟨rfl, hres⟩ h0
        simp only [freeObj, hk', if_true]
        refine ⟨_, rfl, key _ _ ?_ (fun p _ => rfl)⟩
        intro r hr
        rw [List.getElem?_set_ne (Ne.symm hr), List.getElem?_set_ne (Ne.symm hr)]
      | some p =>
        have hob := hI.obj k g p hk hres
        simp only [freeObj, hob, if_true]
        refine ⟨_, rfl, ?_⟩
        have h2 : ∀ q, (∀ q', g.res = some q' → q ≠ q') → (s.objs.set p false)[q]? = s.objs[q]? := by
          intro q hq
          rw [List.getElem?_set_ne (Ne.symm (hq p hres))]
        split
        · apply key _ _ ?_ h2
          intro r hr
          rw [List.getElem?_set_ne (Ne.symm hr), List.getElem?_set_ne (Ne.symm hr)]
        · apply key _ _ ?_ h2
          intro r hr
          rw [List.getElem?_set_ne (Ne.symm hr)]
    · simp only [h1, if_false]
      refine ⟨_, rfl, ?_⟩
      constructor
      · intro i x hx
        obtain ⟨c', hc', hle'⟩ := hI.cnt i x (hsrc hx).2
        have := hu x.ref
        by_cases hr : g.ref = x.ref
        · refine ⟨c - 1, ?_, ?_⟩
          · show (s.counts.set g.ref (some (c - 1)))[x.ref]? = _
            rw [← hr, List.getElem?_set_self hlt]
          · rw [if_pos hr] at this
            rw [← hr] at this hc' hle' ⊢
            simp only [users] at this ⊢
            unfold users at hle; omega
        · refine ⟨c', ?_, ?_⟩
          · show (s.counts.set g.ref (some (c - 1)))[x.ref]? = _
            rw [List.getElem?_set_ne hr]; exact hc'
          · rw [if_neg hr] at this
            simp only [users] at this ⊢
            unfold users at hle'; omega
      · intro i x p hx hp; exact hI.obj i x p (hsrc hx).2 hp
      · intro i j x y p hx hy hp hp'; exact hI.same i j x y p (hsrc hx).2 (hsrc hy).2 hp hp'

theorem run_safe (k : Kind) : ∀ (os : List Op) (s : St), Inv s → run k os s ≠ .ub
  | [], s, _ => by simp [run]
  | o :: os, s, hI => by
    have hstep : step k s o = .misuse ∨ ∃ s', step k s o = .ok s' ∧ Inv s' := by
      cases o with
      | init => exact Or.inr ⟨_, rfl, inv_init hI⟩
      | copy i =>
        simp only [step]
        split
        · rename_i g hg; exact Or.inr (inv_copy hI hg)
        · exact Or.inl rfl
      | use i =>
        simp only [step]
        split
        · rename_i g hg; exact Or.inr (inv_use hI hg)
        · exact Or.inl rfl
      | free i =>
        simp only [step]
        split
        · rename_i g hg; exact Or.inr (inv_free hI k hg)
        · exact Or.inl rfl
    rw [run]
    rcases hstep with h | ⟨s', h, hI'⟩
    · rw [h]; simp
    · rw [h]; exact run_safe k os s' hI'

/-- **C68 (memory).** Models with these settings groups may be made, copied, drawn from or evaluated, and freed, in any order and any number: no cached object or counter is read after it was freed, nor freed twice. -/
theorem C68_safe (k : Kind) (os : List Op) : run k os start ≠ .ub := run_safe k os start inv_start

/-- A history that comes to its end: copies before and after the first use, frees in between. -/
example : ∃ s, run .pmf [.init, .copy 0, .use 0, .copy 0, .free 0, .use 2, .use 1, .free 1, .free 2] start = .ok s := ⟨_, rfl⟩

/-- Not everything is freed: a copy made before the first use has its own object later, but shares the counter. Of the two objects here, one is left when both models are gone. -/
theorem C68_leak : ∃ s, run .pmf [.init, .copy 0, .use 0, .use 1, .free 0, .free 1] start = .ok s ∧ (∀ g ∈ s.groups, g = none) ∧ true ∈ s.objs :=
  ⟨_, rfl, by decide, by decide⟩

end Apop.Cache

namespace Apop.Pmf

/-- A PMF model with its settings group: the weights of its data now, and the cumulative mass, once made. -/
structure PmfModel where
  weights : List ℝ
  cmf : Option (List ℝ)

/-- `apop_estimate(d, m)`, apop_model.m4.c:228-234 with model/apop_pmf.c:78-90: the settings group is copied, pointer and all; the data is the new one. -/
def estimate (ws : List ℝ) (m : PmfModel) : PmfModel := ⟨ws, m.cmf⟩

/-- The cumulative mass used by a draw, model/apop_pmf.c:144-150: made if there is none. -/
noncomputable def cmfOf (m : PmfModel) : Res (Option (List ℝ)) :=
  match m.cmf with
  | some c => .ok (some c)
  | none => setupCmf m.weights

/-- A draw with the uniform `u`, model/apop_pmf.c:144-175: the row and the model afterwards. The size is taken from the weights, the elements from the cumulative mass. -/
noncomputable def drawFrom (m : PmfModel) (u : ℝ) : Res (Option (Found × PmfModel)) :=
  match cmfOf m with
  | .ub => .ub
  | .ok none => .ok none
  | .ok (some c) =>
    match drawSized m.weights.length c u (m.weights.length + 1) with
    | .ub => .ub
    | f => .ok (some (f, { m with cmf := some c }))

theorem drawFrom_eq {m : PmfModel} {u : ℝ} {c : List ℝ} {i : ℕ} (h : cmfOf m = .ok (some c)) (hl : c.length = m.weights.length) (hi : drawRow c u (m.weights.length + 1) = .row i) :
    drawFrom m u = .ok (some (.row i, { m with cmf := some c })) := by
  unfold drawRow at hi
  rw [hl] at hi
  simp only [drawFrom, h, hi]

/-- **C69 (fresh).** A model estimated from one that has not been drawn from follows its own weights. -/
theorem C69_fresh (ws : List ℝ) (m : PmfModel) (hm : m.cmf = none) (hw : ∀ w ∈ ws, 0 ≤ w) (hs : 0 < ws.sum) (u : ℝ) (h0 : 0 < u) (h1 : u < 1) :
    ∃ i m', drawFrom (estimate ws m) u = .ok (some (.row i, m')) ∧ cumShare ws i < u ∧ u ≤ cumShare ws (i + 1) := by
  obtain ⟨c, i, hc, hi, -, hu, -, hp⟩ := C63_row ws hw hs u h0.le h1
  have hne : ws ≠ [] := by rintro rfl; simp at hs
  obtain ⟨c', hc', hlen, -⟩ := (C63_cmf ws hne).2 hs.ne'
  rw [hc] at hc'
  cases hc'
  refine ⟨i, ⟨ws, some c⟩, ?_, (hp h0).1, hu⟩
  exact drawFrom_eq (by simp only [cmfOf, estimate, hm, hc]) hlen hi

/-- **C69 is false.** After a draw from a model, a model estimated from it with new data of the same size makes the draws of the old weights, whatever the new ones are... -/
theorem C69_stale (old new : List ℝ) (hw : ∀ w ∈ old, 0 ≤ w) (hs : 0 < old.sum) (hl : new.length = old.length) (u0 u : ℝ) (h0 : 0 < u) (h1 : u < 1) (hu1 : u0 < 1) (hu0 : 0 ≤ u0) :
    ∃ i m m' j, drawFrom ⟨old, none⟩ u0 = .ok (some (.row j, m)) ∧ drawFrom (estimate new m) u = .ok (some (.row i, m')) ∧ cumShare old i < u ∧ u ≤ cumShare old (i + 1) := by
  obtain ⟨c, j, hc, hj, -, -, -, -⟩ := C63_row old hw hs u0 hu0 hu1
  obtain ⟨c', i, hc', hi, -, hu, -, hp⟩ := C63_row old hw hs u h0.le h1
  rw [hc] at hc'
  cases hc'
  have hne : old ≠ [] := by rintro rfl; simp at hs
  obtain ⟨c', hc', hlen, -⟩ := (C63_cmf old hne).2 hs.ne'
  rw [hc] at hc'
  cases hc'
  refine ⟨i, ⟨old, some c⟩, ⟨new, some c⟩, j, ?_, ?_, (hp h0).1, hu⟩
  · exact drawFrom_eq (by simp only [cmfOf, hc]) hlen hj
  · exact drawFrom_eq (m := ⟨new, some c⟩) (by simp only [cmfOf]) (hlen.trans hl.symm) (by simpa only [hl] using hi)

/-- ... so a row that now has no weight is drawn ... -/
theorem C69_impossible_row : ∃ m m' : PmfModel, ∃ j, drawFrom ⟨[1, 0], none⟩ (1 / 2) = .ok (some (.row j, m)) ∧
    drawFrom (estimate [0, 1] m) (1 / 2) = .ok (some (.row 0, m')) := by
  obtain ⟨i, m, m', j, h1, h2, h3, h4⟩ := C69_stale [1, 0] [0, 1] (by intro w hw; simp at hw; rcases hw with rfl | rfl <;> norm_num) (by norm_num) rfl (1 / 2) (1 / 2)
    (by norm_num) (by norm_num) (by norm_num) (by norm_num)
  have : i = 0 := by
    by_contra hi
    match i, hi with
    | 1, _ => norm_num [cumShare] at h3
    | k + 2, _ => norm_num [cumShare] at h3
  subst this
  exact ⟨m, m', j, h1, h2⟩

/-- ... and if the new data has more than twice the rows, every draw reads past the end of the old vector. -/
theorem C69_overread (old new : List ℝ) (hw : ∀ w ∈ old, 0 ≤ w) (hs : 0 < old.sum) (hl : 2 * old.length < new.length) (u0 u : ℝ) (hu0 : 0 ≤ u0) (hu1 : u0 < 1) :
    ∃ m j, drawFrom ⟨old, none⟩ u0 = .ok (some (.row j, m)) ∧ drawFrom (estimate new m) u = .ub := by
  obtain ⟨c, j, hc, hj, -, -, -, -⟩ := C63_row old hw hs u0 hu0 hu1
  have hne : old ≠ [] := by rintro rfl; simp at hs
  obtain ⟨c', hc', hlen, -⟩ := (C63_cmf old hne).2 hs.ne'
  rw [hc] at hc'
  cases hc'
  refine ⟨⟨old, some c⟩, j, ?_, ?_⟩
  · exact drawFrom_eq (by simp only [cmfOf, hc]) hlen hj
  · have hpos : 0 < old.length := List.length_pos_iff.2 hne
    have h1 : ¬ (new.length - 1) / 2 = 0 := by omega
    have h2 : here c ((new.length - 1) / 2) = .ub := by
      simp [here, rd, List.getElem?_eq_none (show c.length ≤ (new.length - 1) / 2 by omega)]
    simp only [drawFrom, cmfOf, estimate, drawSized, h1, if_false, search, h2]

end Apop.Pmf
