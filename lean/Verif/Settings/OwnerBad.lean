import Verif.Settings.OwnerThms
import Mathlib.Tactic.SplitIfs

/-! # Ownership of settings groups: where copies go wrong, and kernel densities -- C183 -/

namespace Apop.Settings.Owner
variable {A U G : Type}

theorem run_append (c : Code A U G) (a b : List (Op A U)) : ∀ s, run c s (a ++ b) = (run c s a).bind fun s => run c s b := by
  induction a with
  | nil => intro s; rfl
  | cons o a ih =>
    intro s
    simp only [List.cons_append, run]
    cases step c s o with
    | ub => rfl
    | ok s1 => simp only [Res.bind]; exact ih s1

/-- The `i`-th group is there and not freed after a program. -/
def Alive (ops : List (Op A U)) (i : Nat) : Prop := ∃ k, (finalMarks [] ops)[i]? = some k ∧ k ≠ .dead

/-- How many groups a program has made. -/
def made (ops : List (Op A U)) : Nat := (finalMarks [] ops).length

theorem copy_both_freed {c : Code A U G} {own : G → List Nat} {fresh : G → Prop} {pol : Policy} (hs : Sound c own fresh pol)
    (hbad : ∀ h g h' g1 g2 h1, c.copy h g = .ok (h', g1, g2) → c.free h' g1 = .ok h1 → c.free h1 g2 = .ub)
    (ops : List (Op A U)) (hp : Proper pol [] ops) (i : Nat) (hi : Alive ops i) :
    exec c (ops ++ [.copy i, .free i, .free (made ops)]) = .ub := by
  obtain ⟨s, h, inv, -⟩ := run_ok (good := fun _ _ => True) hs ops (inv_start own fresh) hp
  obtain ⟨k, hk, hkd⟩ := hi
  obtain ⟨g, hg, -⟩ := inv.alive i k hk hkd
  have hil : i < s.groups.length := by
    by_contra h; rw [List.getElem?_eq_none (by omega)] at hg; cases hg
  unfold exec
  rw [run_append, h]
  simp only [Res.bind, run, step]
  rw [get_ok hg]
  simp only [Res.bind]
  cases hc : c.copy s.heap g with
  | ub => rfl
  | ok r =>
    obtain ⟨h', g1, g2⟩ := r
    simp only [Res.bind]
    have e1 : (⟨h', s.groups.set i (some g1) ++ [some g2]⟩ : Sess G).get i = .ok g1 := by
      apply get_ok; simp only
      rw [List.getElem?_append_left (by simp; exact hil), List.getElem?_set_self hil]
    rw [e1]
    simp only [Res.bind]
    cases hf : c.free h' g1 with
    | ub => rfl
    | ok h1 =>
      simp only [Res.bind]
      have hm : made ops = s.groups.length := by unfold made; rw [inv.len]
      have e2 : (⟨h1, (s.groups.set i (some g1) ++ [some g2]).set i none⟩ : Sess G).get (made ops) = .ok g2 := by
        apply get_ok; simp only
        rw [List.getElem?_set_ne (by omega), hm, List.getElem?_append_right (by simp)]
        simp
      rw [e2]
      simp only [Res.bind]
      rw [hbad _ _ _ _ _ _ hc hf]

theorem free_dead {h : Heap} {q : Nat} (hq : ¬ h.live q = true) (L : List Nat) : h.frees (q :: L) = .ub := by
  unfold Heap.frees Heap.free; rw [if_neg hq]; rfl

/-- **C183 fails for mixtures**: whatever was done before, copying a mixture (`apop_estimate` copies it) and freeing the
mixture and the copy frees the array of parameter sizes twice. -/
theorem C183_mixture_copy_refuted (ops : List (Op Unit Bool)) (h : Proper .never [] ops) (i : Nat) (hi : Alive ops i) :
    exec mix (ops ++ [.copy i, .free i, .free (made ops)]) = .ub := by
  refine copy_both_freed mix_sound ?_ ops h i hi
  intro h g h' g1 g2 h1 hc hf
  have hc : mixCopy h g = _ := hc
  have hf : mixFree h' g1 = _ := hf
  show mixFree h1 g2 = .ub
  unfold mixCopy at hc
  cases hu : h.use (g.refct :: g.nextW.toList) with
  | ub => rw [hu] at hc; cases hc
  | ok _ =>
    rw [hu] at hc
    simp only [Res.bind, Res.ok.injEq, Prod.mk.injEq] at hc
    obtain ⟨e1, e2, e3⟩ := hc
    subst e2; subst e3
    unfold mixFree at hf ⊢
    simp only
    have hd : ¬ h1.live g.sizes = true := by
      intro hl
      unfold Heap.free at hf
      split_ifs at hf with h2
      · rw [show ∀ r : Heap, (Res.ok r).bind (fun h => h.freeOpt g.nextW) = r.freeOpt g.nextW from fun _ => rfl, freeOpt_frees] at hf
        have := ((frees_sub hf).2 _ hl).1
        simp at this
      · cases hf
    unfold Heap.free; rw [if_neg hd]; rfl

/-- **C183 fails for ARMS settings**: copying a model that has been drawn from by ARMS and freeing both frees the array of points twice. -/
theorem C183_arms_copy_refuted (ops : List (Op Unit Unit)) (h : Proper .never [] ops) (i : Nat) (hi : Alive ops i) :
    exec arms (ops ++ [.copy i, .free i, .free (made ops)]) = .ub := by
  refine copy_both_freed arms_sound ?_ ops h i hi
  intro h g h' g1 g2 h1 hc hf
  have hc : armsCopy h g = _ := hc
  have hf : armsFree h' g1 = _ := hf
  show armsFree h1 g2 = .ub
  unfold armsCopy at hc
  cases hu : h.use [g.state] with
  | ub => rw [hu] at hc; cases hc
  | ok _ =>
    rw [hu] at hc
    simp only [Res.bind, Res.ok.injEq, Prod.mk.injEq] at hc
    obtain ⟨e1, e2, e3⟩ := hc
    subst e2; subst e3
    unfold armsFree at hf ⊢
    cases hu1 : h'.use [g.state] with
    | ub => rw [hu1] at hf; cases hf
    | ok _ =>
      rw [hu1] at hf
      have hd : ¬ h1.live g.p = true := fun hl => ((frees_sub (L := [g.p, g.state]) hf).2 _ hl).2 (by simp)
      simp only
      cases h1.use [h.next] with
      | ub => rfl
      | ok _ => exact free_dead hd _

/-- **C183 fails for loess**: copying an estimated loess model and freeing both frees all arrays twice. -/
theorem C183_loess_copy_refuted (ops : List (Op Bool Unit)) (h : Proper .never [] ops) (i : Nat) (hi : Alive ops i) :
    exec loess (ops ++ [.copy i, .free i, .free (made ops)]) = .ub := by
  refine copy_both_freed loess_sound ?_ ops h i hi
  intro h g h' g1 g2 h1 hc hf
  have hc : loessCopy h g = _ := hc
  have hf : loessFree h' g1 = _ := hf
  show loessFree h1 g2 = .ub
  unfold loessCopy at hc
  simp only [Res.ok.injEq, Prod.mk.injEq] at hc
  obtain ⟨e1, e2, e3⟩ := hc
  subst e2; subst e3
  unfold loessFree at hf ⊢
  have hd : ∀ p ∈ g.arrays ++ [g.weights], ¬ h1.live p = true := fun p hp hl => ((frees_sub hf).2 _ hl).2 hp
  cases ha : g.arrays with
  | nil => rw [ha] at hd; exact free_dead (hd g.weights (by simp)) _
  | cons a L => rw [ha] at hd; exact free_dead (hd a (by simp)) _

/-- **C183 fails for constrained models** copied after an evaluation: the first program copies, frees the original and
uses the copy; the second copies the copy as well, and freeing two of the three frees `last_params` twice. -/
theorem C183_dconstrain_copy_refuted :
    Proper .any [] [.init (), .use 0 (), .copy 0, .free 0, .use 1 ()] ∧
    exec dcon [.init (), .use 0 (), .copy 0, .free 0, .use 1 ()] = .ub ∧
    exec dcon [.init (), .use 0 (), .copy 0, .copy 1, .free 0, .free 1] = .ub := by
  refine ⟨⟨trivial, ⟨.unused, rfl, by decide⟩, ⟨.used, rfl, by simp [mayCopy]⟩, ⟨.used, rfl, by decide⟩, ⟨.used, rfl, by decide⟩, trivial⟩, rfl, rfl⟩

/-- **Lost memory**: a constrained model that was evaluated and never copied; any mixture; the instruments that a copied
linear model got. All groups are freed at the end of these programs. -/
theorem C183_lost_refuted :
    (AllFreed [Op.init (), Op.use 0 (), .free 0] ∧ ¬ Clean dcon [.init (), .use 0 (), .free 0]) ∧
    (AllFreed (A := Unit) (U := Bool) [Op.init (), .free 0] ∧ ¬ Clean mix [.init (), .free 0]) ∧
    (AllFreed (A := LmArg) (U := Unit) [Op.init ⟨true, false⟩, .copy 0, .free 0, .free 1] ∧
      ¬ Clean lm [.init ⟨true, false⟩, .copy 0, .free 0, .free 1]) := by
  have key : ∀ {A U G : Type} (c : Code A U G) (ops : List (Op A U)) (s : Sess G) (p : Nat),
      exec c ops = .ok s → s.heap.live p = true → s.heap.user p = false → ¬ Clean c ops := by
    intro A U G c ops s p he hl hu ⟨s', he', h'⟩
    rw [he] at he'; cases he'
    rw [h' p hl] at hu; cases hu
  refine ⟨⟨?_, key _ _ _ 0 rfl rfl rfl⟩, ⟨?_, key _ _ _ 0 rfl rfl rfl⟩, ⟨?_, key _ _ _ 2 rfl rfl rfl⟩⟩
  all_goals
    intro k hk
    simp [finalMarks, marks] at hk
    tauto

/-- **What the user handed over is freed**: the input distribution given to `apop_lm`, and the weights of the data given
to `apop_loess`; a user who then frees his own model or data frees it again. -/
theorem C183_user_freed_refuted :
    (∃ s, exec lm [.init ⟨false, true⟩, .free 0] = .ok s ∧ s.heap.user 0 = true ∧ s.heap.free 0 = .ub) ∧
    (∃ s, exec loess [.init true, .free 0] = .ok s ∧ s.heap.user 13 = true ∧ s.heap.free 13 = .ub) :=
  ⟨⟨_, rfl, rfl, rfl⟩, ⟨_, rfl, rfl, rfl⟩⟩

/-- The hypotheses are met: three copies, a copy of a copy, uses and frees in any order. -/
example : Proper (A := Nat) (U := Nat) .any [] [.init 0, .init 2, .copy 0, .use 0 1, .copy 0, .copy 3, .free 0, .use 3 4, .copy 1,
    .free 1, .use 5 0, .free 2, .free 3, .free 4, .free 5] ∧
    AllFreed (A := Nat) (U := Nat) [.init 0, .init 2, .copy 0, .use 0 1, .copy 0, .copy 3, .free 0, .use 3 4, .copy 1,
    .free 1, .use 5 0, .free 2, .free 3, .free 4, .free 5] := by
  refine ⟨?_, ?_⟩
  · simp [Proper, OkOp, marks, mayCopy]
  · intro k hk
    simp [finalMarks, marks] at hk
    tauto

example : Proper (A := Unit) (U := Unit) .unused [] [.init (), .copy 0, .use 1 (), .copy 0, .use 0 (), .free 0, .use 2 (), .free 2] := by
  simp [Proper, OkOp, marks, mayCopy]

example : Proper (A := Unit) (U := Bool) .never [] [.init (), .use 0 true, .use 0 false] ∧
    Alive (A := Unit) (U := Bool) [.init (), .use 0 true, .use 0 false] 0 := by
  refine ⟨by simp [Proper, OkOp, marks], ⟨.used, rfl, by decide⟩⟩

end Apop.Settings.Owner
