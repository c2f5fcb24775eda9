import Verif.Settings.OwnerBad
import Mathlib.Tactic.SplitIfs

/-! # Ownership of kernel density settings -- C183 -/

namespace Apop.Settings.Owner

/-! ## Specification: which group a copy goes back to -/

/-- The group each group is a copy (of a copy, ..) of; a new group is its own root. -/
def roots {A U : Type} (rs : List Nat) : Op A U → List Nat
  | .init _ => rs ++ [rs.length]
  | .copy i => rs ++ [rs.getD i 0]
  | .use _ _ => rs
  | .free _ => rs

/-- A group may be used only while its root has not been freed. -/
def RootedOp {A U : Type} (ks : List Mark) (rs : List Nat) : Op A U → Prop
  | .use i _ => ∃ r k, rs[i]? = some r ∧ ks[r]? = some k ∧ k ≠ .dead
  | _ => True

/-- All uses of a program are so. -/
def Rooted {A U : Type} : List Mark → List Nat → List (Op A U) → Prop
  | _, _, [] => True
  | ks, rs, o :: os => RootedOp ks rs o ∧ Rooted (marks ks o) (roots rs o) os

/-! ## Proof -/

structure KInv (s : Sess Kde) (ks : List Mark) (rs : List Nat) : Prop where
  len : s.groups.length = ks.length
  rlen : rs.length = ks.length
  alive : ∀ (i : Nat) (k : Mark), ks[i]? = some k → k ≠ .dead → ∃ g, s.groups[i]? = some (some g)
  dead : ∀ (i : Nat), ks[i]? = some .dead → s.groups[i]? = some none
  fr : ∀ p, s.heap.live p = true → p < s.heap.next
  userLive : ∀ p, s.heap.user p = true → s.heap.live p = true
  /-- Every group has two numbers of its root. -/
  root : ∀ (i : Nat) (g : Kde), s.groups[i]? = some (some g) → ∃ r, rs[i]? = some r ∧ r < s.groups.length ∧
    ∀ g' : Kde, s.groups[r]? = some (some g') → g'.pmf = g.pmf ∧ g'.kernel = g.kernel ∧
      (g'.ownPmf = true ∨ s.heap.user g.pmf = true) ∧ (g'.ownKernel = true ∨ s.heap.user g.kernel = true)
  own : ∀ (i : Nat) (g : Kde), s.groups[i]? = some (some g) →
    g.pmf ≠ g.kernel ∧ g.pmf < s.heap.next ∧ g.kernel < s.heap.next ∧
    (g.ownPmf = true → s.heap.live g.pmf = true ∧ s.heap.user g.pmf = false) ∧
    (g.ownKernel = true → s.heap.live g.kernel = true ∧ s.heap.user g.kernel = false)
  disj : ∀ (i j : Nat) (g g' : Kde), i ≠ j → s.groups[i]? = some (some g) → s.groups[j]? = some (some g') →
    (g.ownPmf = true → (g'.ownPmf = true → g.pmf ≠ g'.pmf) ∧ (g'.ownKernel = true → g.pmf ≠ g'.kernel)) ∧
    (g.ownKernel = true → (g'.ownKernel = true → g.kernel ≠ g'.kernel))
  /-- Nothing is lost. -/
  kept : ∀ p, s.heap.live p = true → s.heap.user p = true ∨ ∃ (i : Nat) (g : Kde), s.groups[i]? = some (some g) ∧
    ((g.ownPmf = true ∧ g.pmf = p) ∨ (g.ownKernel = true ∧ g.kernel = p))

theorem kget {l : List (Option Kde)} {i : Nat} {x : Option Kde} {y : Option Kde} (h : (l ++ [x])[i]? = some y) :
    (i < l.length ∧ l[i]? = some y) ∨ (i = l.length ∧ x = y) := by
  by_cases h1 : i < l.length
  · rw [List.getElem?_append_left h1] at h; exact .inl ⟨h1, h⟩
  · by_cases h2 : i = l.length
    · subst h2; rw [List.getElem?_concat_length] at h; cases h; exact .inr ⟨rfl, rfl⟩
    · rw [List.getElem?_eq_none (by simp; omega)] at h; cases h

theorem klt {α : Type} {l : List α} {i : Nat} {y : α} (h : l[i]? = some y) : i < l.length := by
  by_contra h1; rw [List.getElem?_eq_none (by omega)] at h; cases h

theorem mget {l : List Mark} {i : Nat} {x y : Mark} (h : (l ++ [x])[i]? = some y) :
    (i < l.length ∧ l[i]? = some y) ∨ (i = l.length ∧ x = y) := by
  by_cases h1 : i < l.length
  · rw [List.getElem?_append_left h1] at h; exact .inl ⟨h1, h⟩
  · by_cases h2 : i = l.length
    · subst h2; rw [List.getElem?_concat_length] at h; cases h; exact .inr ⟨rfl, rfl⟩
    · rw [List.getElem?_eq_none (by simp; omega)] at h; cases h

theorem kinit_ok {s : Sess Kde} {ks : List Mark} {rs : List Nat} (inv : KInv s ks rs) (a : KdeArg) :
    KInv ⟨(kdeInit s.heap a).1, s.groups ++ [some (kdeInit s.heap a).2]⟩ (ks ++ [.unused]) (rs ++ [rs.length]) := by
  have hlive := two_live s.heap a.pmf a.kernel
  have huser : ∀ p, ((s.heap.allocBy a.pmf).allocBy a.kernel).user p = true ↔
      s.heap.user p = true ∨ (a.pmf = true ∧ p = s.heap.next) ∨ (a.kernel = true ∧ p = s.heap.next + 1) := by
    intro p; rw [allocBy_user, allocBy_user, allocBy_next]; tauto
  have hnext : ((s.heap.allocBy a.pmf).allocBy a.kernel).next = s.heap.next + 2 := by rw [allocBy_next, allocBy_next]
  have hul : ∀ p, s.heap.user p = true → p < s.heap.next := fun p hp => inv.fr p (inv.userLive p hp)
  have hnu : ∀ p, p < s.heap.next → s.heap.user p = false → ((s.heap.allocBy a.pmf).allocBy a.kernel).user p = false := by
    intro p hp hu
    by_contra h
    rcases (huser p).1 (by simpa using h) with h1 | h1 | h1
    · rw [hu] at h1; cases h1
    · omega
    · omega
  unfold kdeInit
  refine ⟨by simp [inv.len], by simp [inv.rlen], ?_, ?_, ?_, ?_, ?_, ?_, ?_, ?_⟩
  · intro i k hk hkd
    rcases mget hk with ⟨h1, h2⟩ | ⟨h1, h2⟩
    · obtain ⟨g, hg⟩ := inv.alive i k h2 hkd
      exact ⟨g, by simp only; rw [List.getElem?_append_left (klt hg)]; exact hg⟩
    · subst h1; exact ⟨_, by simp only; rw [← inv.len, List.getElem?_concat_length]⟩
  · intro i hk
    rcases mget hk with ⟨h1, h2⟩ | ⟨h1, h2⟩
    · simp only; rw [List.getElem?_append_left (by rw [inv.len]; exact h1)]; exact inv.dead i h2
    · cases h2
  · intro p hp
    simp only at hp ⊢
    rw [hnext]
    rcases (hlive p).1 hp with h1 | h1
    · have := inv.fr p h1; omega
    · omega
  · intro p hp
    simp only at hp ⊢
    rcases (huser p).1 hp with h1 | h1 | h1
    · exact (hlive p).2 (.inl (inv.userLive p h1))
    · exact (hlive p).2 (.inr (by omega))
    · exact (hlive p).2 (.inr (by omega))
  · intro i g hg
    simp only at hg ⊢
    rcases kget hg with ⟨h1, h2⟩ | ⟨h1, h2⟩
    · obtain ⟨r, hr, hrl2, hr2⟩ := inv.root i g h2
      refine ⟨r, by rw [List.getElem?_append_left (klt hr)]; exact hr, by simp; omega, ?_⟩
      intro g' hg'
      rw [List.getElem?_append_left hrl2] at hg'
      obtain ⟨q1, q2, q3, q4⟩ := hr2 g' hg'
      exact ⟨q1, q2, q3.imp id (fun h => (huser _).2 (.inl h)), q4.imp id (fun h => (huser _).2 (.inl h))⟩
    · have hr : i = rs.length := by rw [h1, inv.len, inv.rlen]
      refine ⟨rs.length, by rw [hr, List.getElem?_concat_length], by simp; rw [inv.len, inv.rlen]; omega, ?_⟩
      intro g' hg'
      rw [← hr, hg] at hg'
      cases hg'
      cases h2
      refine ⟨rfl, rfl, ?_, ?_⟩
      · by_cases hp : a.pmf = true
        · exact .inr ((huser _).2 (.inr (.inl ⟨hp, rfl⟩)))
        · left; simp [hp]
      · by_cases hp : a.kernel = true
        · exact .inr ((huser _).2 (.inr (.inr ⟨hp, rfl⟩)))
        · left; simp [hp]
  · intro i g hg
    simp only at hg ⊢
    rw [hnext]
    rcases kget hg with ⟨h1, h2⟩ | ⟨h1, h2⟩
    · obtain ⟨q1, q2, q3, q4, q5⟩ := inv.own i g h2
      exact ⟨q1, by omega, by omega, fun h => ⟨(hlive _).2 (.inl (q4 h).1), hnu _ q2 (q4 h).2⟩,
        fun h => ⟨(hlive _).2 (.inl (q5 h).1), hnu _ q3 (q5 h).2⟩⟩
    · cases h2
      refine ⟨by simp, by simp, by simp, ?_, ?_⟩
      · intro h
        refine ⟨(hlive _).2 (.inr (by simp)), ?_⟩
        by_contra h3
        rcases (huser _).1 (by simpa using h3) with h4 | h4 | h4
        · have := hul _ h4; simp at this
        · rw [h4.1] at h; cases h
        · omega
      · intro h
        refine ⟨(hlive _).2 (.inr (by simp)), ?_⟩
        by_contra h3
        rcases (huser _).1 (by simpa using h3) with h4 | h4 | h4
        · have := hul _ h4; omega
        · omega
        · rw [h4.1] at h; cases h
  · intro i j g g' hij hg hg'
    simp only at hg hg'
    rcases kget hg with ⟨h1, h2⟩ | ⟨h1, h2⟩ <;> rcases kget hg' with ⟨h3, h4⟩ | ⟨h3, h4⟩
    · exact inv.disj i j g g' hij h2 h4
    · cases h4
      obtain ⟨q1, q2, q3, q4, q5⟩ := inv.own i g h2
      simp only
      refine ⟨fun _ => ⟨fun _ => ?_, fun _ => ?_⟩, fun _ _ => ?_⟩ <;> omega
    · cases h2
      obtain ⟨q1, q2, q3, q4, q5⟩ := inv.own j g' h4
      simp only
      refine ⟨fun _ => ⟨fun _ => ?_, fun _ => ?_⟩, fun _ _ => ?_⟩ <;> omega
    · omega
  · intro p hp
    simp only at hp ⊢
    rcases (hlive p).1 hp with h1 | h1
    · rcases inv.kept p h1 with h2 | ⟨i, g, hg, h2⟩
      · exact .inl ((huser p).2 (.inl h2))
      · exact .inr ⟨i, g, by rw [List.getElem?_append_left (klt hg)]; exact hg, h2⟩
    · by_cases hp0 : p = s.heap.next
      · by_cases hb : a.pmf = true
        · left; rw [huser]; exact .inr (.inl ⟨hb, hp0⟩)
        · exact .inr ⟨_, _, List.getElem?_concat_length .., .inl ⟨by simp [hb], hp0.symm⟩⟩
      · have hp1 : p = s.heap.next + 1 := by omega
        by_cases hb : a.kernel = true
        · left; rw [huser]; exact .inr (.inr ⟨hb, hp1⟩)
        · exact .inr ⟨_, _, List.getElem?_concat_length .., .inr ⟨by simp [hb], hp1.symm⟩⟩

theorem kcopy_ok {s : Sess Kde} {ks : List Mark} {rs : List Nat} (inv : KInv s ks rs) (i : Nat) (g : Kde)
    (hg : s.groups[i]? = some (some g)) :
    KInv ⟨s.heap, s.groups.set i (some g) ++ [some { g with ownPmf := false, ownKernel := false }]⟩
      (ks ++ [ks.getD i .dead]) (rs ++ [rs.getD i 0]) := by
  have hset : s.groups.set i (some g) = s.groups := by
    apply List.ext_getElem?
    intro j
    by_cases hj : j = i
    · subst hj; rw [List.getElem?_set_self (klt hg), hg]
    · rw [List.getElem?_set_ne (by omega)]
  rw [hset]
  have hil := klt hg
  have hik : i < ks.length := by rw [← inv.len]; exact hil
  refine ⟨by simp [inv.len], by simp [inv.rlen], ?_, ?_, inv.fr, inv.userLive, ?_, ?_, ?_, ?_⟩
  · intro j k hk hkd
    rcases mget hk with ⟨h1, h2⟩ | ⟨h1, h2⟩
    · obtain ⟨g, hg⟩ := inv.alive j k h2 hkd
      exact ⟨g, by simp only; rw [List.getElem?_append_left (klt hg)]; exact hg⟩
    · subst h1; exact ⟨_, by simp only; rw [← inv.len, List.getElem?_concat_length]⟩
  · intro j hk
    rcases mget hk with ⟨h1, h2⟩ | ⟨h1, h2⟩
    · simp only; rw [List.getElem?_append_left (by rw [inv.len]; exact h1)]; exact inv.dead j h2
    · rw [List.getD_eq_getElem?_getD, List.getElem?_eq_getElem hik] at h2
      have := inv.dead i (by rw [List.getElem?_eq_getElem hik]; exact congrArg some h2)
      rw [hg] at this; cases this
  · intro j g2 hg2
    simp only at hg2 ⊢
    rcases kget hg2 with ⟨h1, h2⟩ | ⟨h1, h2⟩
    · obtain ⟨r, hr, hrl, hr2⟩ := inv.root j g2 h2
      refine ⟨r, by rw [List.getElem?_append_left (klt hr)]; exact hr, by simp; omega, ?_⟩
      intro g' hg'
      rw [List.getElem?_append_left hrl] at hg'
      exact hr2 g' hg'
    · cases h2
      obtain ⟨r, hr, hrl, hr2⟩ := inv.root i g hg
      refine ⟨r, ?_, by simp; omega, ?_⟩
      · rw [h1, inv.len, ← inv.rlen, List.getElem?_concat_length, List.getD_eq_getElem?_getD, hr]; rfl
      · intro g' hg'
        rw [List.getElem?_append_left hrl] at hg'
        exact hr2 g' hg'
  · intro j g2 hg2
    rcases kget hg2 with ⟨h1, h2⟩ | ⟨h1, h2⟩
    · exact inv.own j g2 h2
    · cases h2
      obtain ⟨q1, q2, q3, _, _⟩ := inv.own i g hg
      exact ⟨q1, q2, q3, fun h => (by cases h), fun h => (by cases h)⟩
  · intro a b g1 g2 hab hg1 hg2
    rcases kget hg1 with ⟨h1, h2⟩ | ⟨h1, h2⟩ <;> rcases kget hg2 with ⟨h3, h4⟩ | ⟨h3, h4⟩
    · exact inv.disj a b g1 g2 hab h2 h4
    · cases h4; exact ⟨fun _ => ⟨fun h => (by cases h), fun h => (by cases h)⟩, fun _ h => (by cases h)⟩
    · cases h2; exact ⟨fun h => (by cases h), fun h => (by cases h)⟩
    · omega
  · intro p hp
    rcases inv.kept p hp with h2 | ⟨j, g2, hg2, h2⟩
    · exact .inl h2
    · exact .inr ⟨j, g2, by simp only; rw [List.getElem?_append_left (klt hg2)]; exact hg2, h2⟩

/-- The blocks a group owns. -/
def kdeOwn (g : Kde) : List Nat := (if g.ownPmf then [g.pmf] else []) ++ (if g.ownKernel then [g.kernel] else [])

theorem mem_kdeOwn (g : Kde) (p : Nat) :
    p ∈ kdeOwn g ↔ (g.ownPmf = true ∧ g.pmf = p) ∨ (g.ownKernel = true ∧ g.kernel = p) := by
  unfold kdeOwn
  cases g.ownPmf <;> cases g.ownKernel <;> simp [eq_comm]

theorem kdeFree_eq (h : Heap) (g : Kde) : kdeFree h g = h.frees (kdeOwn g) := by
  unfold kdeFree kdeOwn Heap.freeIf
  cases g.ownPmf <;> cases g.ownKernel
  · rfl
  · simp only [Bool.false_eq_true, if_false, if_true, List.nil_append, Heap.frees, Res.bind]
    cases h.free g.kernel <;> rfl
  · simp only [Bool.false_eq_true, if_false, if_true, List.append_nil, Heap.frees]
  · simp only [if_true, List.cons_append, List.nil_append, Heap.frees]
    cases h.free g.pmf with
    | ub => rfl
    | ok h1 => simp only [Res.bind]; cases h1.free g.kernel <;> rfl

theorem kfree_ok {s : Sess Kde} {ks : List Mark} {rs : List Nat} (inv : KInv s ks rs) (i : Nat) (g : Kde)
    (hg : s.groups[i]? = some (some g)) :
    ∃ h', kdeFree s.heap g = .ok h' ∧ KInv ⟨h', s.groups.set i none⟩ (ks.set i .dead) rs := by
  have hil := klt hg
  have hik : i < ks.length := by rw [← inv.len]; exact hil
  obtain ⟨q1, q2, q3, q4, q5⟩ := inv.own i g hg
  have hnd : (kdeOwn g).Nodup := by
    unfold kdeOwn; cases g.ownPmf <;> cases g.ownKernel <;> simp [q1]
  obtain ⟨h', e, e1, e2, e3⟩ := frees_ok (kdeOwn g) s.heap hnd (by
    intro p hp
    rcases (mem_kdeOwn g p).1 hp with ⟨a, b⟩ | ⟨a, b⟩
    · rw [← b]; exact (q4 a).1
    · rw [← b]; exact (q5 a).1)
  have hget : ∀ (j : Nat) (g2 : Kde), (s.groups.set i none)[j]? = some (some g2) → j ≠ i ∧ s.groups[j]? = some (some g2) := by
    intro j g2 h
    by_cases hj : j = i
    · subst hj; rw [List.getElem?_set_self hil] at h; cases h
    · rw [List.getElem?_set_ne (by omega)] at h; exact ⟨hj, h⟩
  refine ⟨h', by rw [kdeFree_eq]; exact e, by simp [inv.len], by simp [inv.rlen], ?_, ?_, ?_, ?_, ?_, ?_, ?_, ?_⟩
  · intro j k hk hkd
    by_cases hj : j = i
    · subst hj; rw [List.getElem?_set_self hik] at hk; cases hk; exact absurd rfl hkd
    · simp only; rw [List.getElem?_set_ne (by omega)] at hk ⊢; exact inv.alive j k hk hkd
  · intro j hk
    by_cases hj : j = i
    · subst hj; simp only; rw [List.getElem?_set_self hil]
    · simp only; rw [List.getElem?_set_ne (by omega)] at hk ⊢; exact inv.dead j hk
  · intro p hp; simp only at hp ⊢; rw [e1]; exact inv.fr p ((e3 p).1 hp).1
  · intro p hp
    simp only at hp ⊢
    rw [e2] at hp
    refine (e3 p).2 ⟨inv.userLive p hp, ?_⟩
    intro hm
    rcases (mem_kdeOwn g p).1 hm with ⟨a, b⟩ | ⟨a, b⟩
    · rw [← b, (q4 a).2] at hp; cases hp
    · rw [← b, (q5 a).2] at hp; cases hp
  · intro j g2 hg2
    obtain ⟨hj, hg3⟩ := hget j g2 hg2
    obtain ⟨r, hr, hrl, hr2⟩ := inv.root j g2 hg3
    refine ⟨r, hr, by simp; omega, ?_⟩
    intro g' hg'
    simp only; rw [e2]
    exact hr2 g' (hget r g' hg').2
  · intro j g2 hg2
    obtain ⟨hj, hg3⟩ := hget j g2 hg2
    obtain ⟨p1, p2, p3, p4, p5⟩ := inv.own j g2 hg3
    simp only; rw [e1, e2]
    have hd := inv.disj i j g g2 (by omega) hg hg3
    have hd2 := inv.disj j i g2 g (by omega) hg3 hg
    refine ⟨p1, p2, p3, fun h => ⟨(e3 _).2 ⟨(p4 h).1, ?_⟩, (p4 h).2⟩, fun h => ⟨(e3 _).2 ⟨(p5 h).1, ?_⟩, (p5 h).2⟩⟩
    · intro hm
      rcases (mem_kdeOwn g _).1 hm with ⟨a, b⟩ | ⟨a, b⟩
      · exact (hd.1 a).1 h b
      · exact (hd2.1 h).2 a b.symm
    · intro hm
      rcases (mem_kdeOwn g _).1 hm with ⟨a, b⟩ | ⟨a, b⟩
      · exact (hd.1 a).2 h b
      · exact hd.2 a h b
  · intro a b g1 g2 hab hg1 hg2
    exact inv.disj a b g1 g2 hab (hget a g1 hg1).2 (hget b g2 hg2).2
  · intro p hp
    simp only at hp ⊢
    rw [e2]
    obtain ⟨h1, h2⟩ := (e3 p).1 hp
    rcases inv.kept p h1 with h3 | ⟨j, g2, hg2, h3⟩
    · exact .inl h3
    · refine .inr ⟨j, g2, ?_, h3⟩
      have hj : j ≠ i := by
        intro hj; subst hj
        rw [hg] at hg2; cases hg2
        exact h2 ((mem_kdeOwn g p).2 h3)
      rw [List.getElem?_set_ne (by omega)]; exact hg2

theorem kuse_mark {s : Sess Kde} {ks : List Mark} {rs : List Nat} (inv : KInv s ks rs) (i : Nat) (g : Kde)
    (hg : s.groups[i]? = some (some g)) : KInv ⟨s.heap, s.groups.set i (some g)⟩ (ks.set i .used) rs := by
  have hset : s.groups.set i (some g) = s.groups := by
    apply List.ext_getElem?
    intro j
    by_cases hj : j = i
    · subst hj; rw [List.getElem?_set_self (klt hg), hg]
    · rw [List.getElem?_set_ne (by omega)]
  rw [hset]
  have hik : i < ks.length := by rw [← inv.len]; exact klt hg
  refine ⟨by simp [inv.len], by simp [inv.rlen], ?_, ?_, inv.fr, inv.userLive, inv.root, inv.own, inv.disj, inv.kept⟩
  · intro j k hk hkd
    by_cases hj : j = i
    · subst hj; exact ⟨g, hg⟩
    · rw [List.getElem?_set_ne (by omega)] at hk; exact inv.alive j k hk hkd
  · intro j hk
    by_cases hj : j = i
    · subst hj; rw [List.getElem?_set_self hik] at hk; cases hk
    · rw [List.getElem?_set_ne (by omega)] at hk; exact inv.dead j hk

theorem kstep_ok {s : Sess Kde} {ks : List Mark} {rs : List Nat} (inv : KInv s ks rs) (o : Op KdeArg Unit)
    (ho : OkOp .any ks o) (hr : RootedOp ks rs o) :
    ∃ s', step kde s o = .ok s' ∧ KInv s' (marks ks o) (roots rs o) := by
  cases o with
  | init a => exact ⟨_, rfl, kinit_ok inv a⟩
  | copy i =>
    obtain ⟨k, hk, hkd⟩ := ho
    obtain ⟨g, hg⟩ := inv.alive i k hk hkd
    refine ⟨_, ?_, kcopy_ok inv i g hg⟩
    simp only [step]; rw [get_ok hg]; rfl
  | use i u =>
    obtain ⟨k, hk, hkd⟩ := ho
    obtain ⟨g, hg⟩ := inv.alive i k hk hkd
    obtain ⟨r, kr, hr1, hr2, hr3⟩ := hr
    obtain ⟨r', hr', _, hroot⟩ := inv.root i g hg
    rw [hr1] at hr'; cases hr'
    obtain ⟨g', hg'⟩ := inv.alive r kr hr2 hr3
    obtain ⟨e1, e2, e3, e4⟩ := hroot g' hg'
    obtain ⟨_, _, _, p4, p5⟩ := inv.own r g' hg'
    refine ⟨_, ?_, kuse_mark inv i g hg⟩
    simp only [step]; rw [get_ok hg]
    show (kdeUse s.heap g u).bind _ = _
    unfold kdeUse
    rw [use_ok]
    · rfl
    · intro p hp
      simp only [List.mem_cons, List.not_mem_nil, or_false] at hp
      rcases hp with rfl | rfl
      · rcases e3 with h | h
        · rw [← e1]; exact (p4 h).1
        · exact inv.userLive _ h
      · rcases e4 with h | h
        · rw [← e2]; exact (p5 h).1
        · exact inv.userLive _ h
  | free i =>
    obtain ⟨k, hk, hkd⟩ := ho
    obtain ⟨g, hg⟩ := inv.alive i k hk hkd
    obtain ⟨h', e, inv'⟩ := kfree_ok inv i g hg
    refine ⟨_, ?_, inv'⟩
    simp only [step]; rw [get_ok hg]
    show (kdeFree s.heap g).bind _ = _
    rw [e]; rfl

theorem krun_ok (ops : List (Op KdeArg Unit)) : ∀ {s : Sess Kde} {ks : List Mark} {rs : List Nat}, KInv s ks rs →
    Proper .any ks ops → Rooted ks rs ops → ∃ s' rs', run kde s ops = .ok s' ∧ KInv s' (finalMarks ks ops) rs' := by
  induction ops with
  | nil => intro s ks rs inv _ _; exact ⟨s, rs, rfl, inv⟩
  | cons o os ih =>
    intro s ks rs inv hp hr
    obtain ⟨s1, e1, inv1⟩ := kstep_ok inv o hp.1 hr.1
    obtain ⟨s2, rs2, e2, inv2⟩ := ih inv1 hp.2 hr.2
    exact ⟨s2, rs2, by unfold run; rw [e1]; exact e2, inv2⟩

theorem kinv_start : KInv ⟨Heap.empty, []⟩ [] [] := by
  refine ⟨rfl, rfl, ?_, ?_, ?_, ?_, ?_, ?_, ?_, ?_⟩
  · intro i k h; simp at h
  · intro i h; simp at h
  · intro p h; simp [Heap.empty] at h
  · intro p h; simp [Heap.empty] at h
  · intro i g h; simp at h
  · intro i g h; simp at h
  · intro i j g g' _ h; simp at h
  · intro p h; simp [Heap.empty] at h

/-- **C183, kernel densities.** However a program sets up, copies, uses and frees kernel densities, with PMFs and kernels of
the user's or the default ones: if no copy is used after the density it goes back to has been freed, nothing is used after it
was freed or freed twice; what the user allocated is not freed; and when all have been freed only what the user allocated is left. -/
theorem C183_kernel (ops : List (Op KdeArg Unit)) (h : Proper .any [] ops) (hr : Rooted [] [] ops) :
    Runs kde ops ∧ UserKept kde ops ∧ (AllFreed ops → Clean kde ops) := by
  obtain ⟨s, rs, e, inv⟩ := krun_ok ops kinv_start h hr
  refine ⟨⟨s, e⟩, ⟨s, e, inv.userLive⟩, fun ha => ⟨s, e, fun p hp => ?_⟩⟩
  rcases inv.kept p hp with h1 | ⟨i, g, hg, _⟩
  · exact h1
  · exfalso
    have hil : i < (finalMarks [] ops).length := by rw [← inv.len]; exact klt hg
    have := inv.dead i (by rw [List.getElem?_eq_getElem hil, ha _ (List.getElem_mem hil)])
    rw [hg] at this; cases this

/-- **C183 fails for kernel densities** whose original is freed before a copy is used. -/
theorem C183_kernel_copy_refuted :
    Proper .any [] [Op.init (KdeArg.mk false false), .copy 0, .free 0, .use 1 ()] ∧
    exec kde [.init ⟨false, false⟩, .copy 0, .free 0, .use 1 ()] = .ub :=
  ⟨⟨trivial, ⟨.unused, rfl, by simp [mayCopy]⟩, ⟨.unused, rfl, by decide⟩, ⟨.unused, rfl, by decide⟩, trivial⟩, rfl⟩

/-- The hypotheses are met: two densities, a copy of a copy, the root freed last but one. -/
example : Proper (A := KdeArg) (U := Unit) .any [] [.init ⟨false, true⟩, .init ⟨false, false⟩, .copy 1, .copy 2, .use 3 (), .free 2, .use 3 (), .free 1,
      .free 3, .use 0 (), .free 0] ∧
    Rooted (A := KdeArg) (U := Unit) [] [] [.init ⟨false, true⟩, .init ⟨false, false⟩, .copy 1, .copy 2, .use 3 (), .free 2, .use 3 (), .free 1,
      .free 3, .use 0 (), .free 0] := by
  refine ⟨by simp [Proper, OkOp, marks, mayCopy], by simp [Rooted, RootedOp, marks, roots]⟩

end Apop.Settings.Owner
