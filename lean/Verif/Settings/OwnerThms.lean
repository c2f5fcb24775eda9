import Verif.Settings.OwnerProps
import Mathlib.Tactic.SplitIfs
import Mathlib.Data.List.Nodup

/-! # Ownership of settings groups: the groups -- C183 -/

namespace Apop.Settings.Owner

/-! ## Allocating and freeing -/

theorem allocs_next (h : Heap) (n : Nat) : (h.allocs n).next = h.next + n := by
  induction n generalizing h with
  | zero => rfl
  | succ n ih => unfold Heap.allocs; rw [ih]; simp only [Heap.alloc]; omega

theorem allocs_user (h : Heap) (n : Nat) : (h.allocs n).user = h.user := by
  induction n generalizing h with
  | zero => rfl
  | succ n ih => unfold Heap.allocs; rw [ih]; rfl

theorem allocs_live (h : Heap) (n p : Nat) :
    (h.allocs n).live p = true ↔ h.live p = true ∨ (h.next ≤ p ∧ p < h.next + n) := by
  induction n generalizing h with
  | zero => unfold Heap.allocs; constructor
            · exact .inl
            · rintro (h1 | h1)
              · exact h1
              · omega
  | succ n ih =>
    unfold Heap.allocs; rw [ih]
    simp only [Heap.alloc]
    split_ifs with h1
    · subst h1; constructor
      · intro _; right; omega
      · intro _; left; rfl
    · constructor
      · rintro (h2 | h2)
        · exact .inl h2
        · right; omega
      · rintro (h2 | h2)
        · exact .inl h2
        · right; omega

theorem allocsUser_next (h : Heap) (n : Nat) : (h.allocsUser n).next = h.next + n := by
  induction n generalizing h with
  | zero => rfl
  | succ n ih => unfold Heap.allocsUser; rw [ih]; simp only [Heap.allocUser]; omega

theorem allocsUser_live (h : Heap) (n p : Nat) :
    (h.allocsUser n).live p = true ↔ h.live p = true ∨ (h.next ≤ p ∧ p < h.next + n) := by
  induction n generalizing h with
  | zero => unfold Heap.allocsUser; constructor
            · exact .inl
            · rintro (h1 | h1)
              · exact h1
              · omega
  | succ n ih =>
    unfold Heap.allocsUser; rw [ih]
    simp only [Heap.allocUser]
    split_ifs with h1
    · subst h1; constructor
      · intro _; right; omega
      · intro _; left; rfl
    · constructor
      · rintro (h2 | h2)
        · exact .inl h2
        · right; omega
      · rintro (h2 | h2)
        · exact .inl h2
        · right; omega

theorem allocsUser_user (h : Heap) (n p : Nat) :
    (h.allocsUser n).user p = true ↔ h.user p = true ∨ (h.next ≤ p ∧ p < h.next + n) := by
  induction n generalizing h with
  | zero => unfold Heap.allocsUser; constructor
            · exact .inl
            · rintro (h1 | h1)
              · exact h1
              · omega
  | succ n ih =>
    unfold Heap.allocsUser; rw [ih]
    simp only [Heap.allocUser]
    split_ifs with h1
    · subst h1; constructor
      · intro _; right; omega
      · intro _; left; rfl
    · constructor
      · rintro (h2 | h2)
        · exact .inl h2
        · right; omega
      · rintro (h2 | h2)
        · exact .inl h2
        · right; omega

theorem mem_blocks (a n p : Nat) : p ∈ blocks a n ↔ a ≤ p ∧ p < a + n := by
  unfold blocks
  simp only [List.mem_map, List.mem_range]
  constructor
  · rintro ⟨k, hk, rfl⟩; omega
  · rintro ⟨h1, h2⟩; exact ⟨p - a, by omega, by omega⟩

theorem nodup_blocks (a n : Nat) : (blocks a n).Nodup := by
  unfold blocks
  exact List.Nodup.map (fun x y h => by simpa using h) List.nodup_range

theorem frees_ok (L : List Nat) : ∀ (h : Heap), L.Nodup → (∀ p ∈ L, h.live p = true) →
    ∃ h', h.frees L = .ok h' ∧ h'.next = h.next ∧ h'.user = h.user ∧
      ∀ p, h'.live p = true ↔ h.live p = true ∧ p ∉ L := by
  induction L with
  | nil => intro h _ _; exact ⟨h, rfl, rfl, rfl, by intro p; simp⟩
  | cons q L ih =>
    intro h hnd hl
    have hq := hl q (by simp)
    obtain ⟨hq1, hnd2⟩ := List.nodup_cons.1 hnd
    obtain ⟨h', e, e1, e2, e3⟩ := ih ⟨fun r => if r = q then false else h.live r, h.next, h.user⟩ hnd2 (by
      intro p hp
      simp only
      rw [if_neg (fun hh : p = q => hq1 (hh ▸ hp))]
      exact hl p (by simp [hp]))
    refine ⟨h', ?_, e1, e2, ?_⟩
    · unfold Heap.frees Heap.free; rw [if_pos hq]; exact e
    · intro p
      rw [e3 p]
      simp only [List.mem_cons]
      by_cases hpq : p = q
      · subst hpq; simp
      · simp [hpq]

theorem frees_append (L M : List Nat) : ∀ (h : Heap), h.frees (L ++ M) = (h.frees L).bind fun h => h.frees M := by
  induction L with
  | nil => intro h; rfl
  | cons q L ih =>
    intro h
    simp only [List.cons_append, Heap.frees]
    cases h.free q with
    | ub => rfl
    | ok h1 => simp only [Res.bind]; exact ih h1

theorem freeOpt_frees (h : Heap) (o : Option Nat) : h.freeOpt o = h.frees o.toList := by
  cases o with
  | none => rfl
  | some p => simp only [Heap.freeOpt, Option.toList, Heap.frees]; cases h.free p <;> rfl

theorem use_ok {h : Heap} {ps : List Nat} (hl : ∀ p ∈ ps, h.live p = true) : h.use ps = .ok () := by
  unfold Heap.use; rw [if_pos (by rw [List.all_eq_true]; exact hl)]

/-- Allocating gives new blocks. -/
theorem chg_alloc {h h' : Heap} {O O' N : List Nat} {n : Nat} (e : O' = O ++ N) (hn : h'.next = h.next + n)
    (hl : ∀ p, h'.live p = true ↔ h.live p = true ∨ (h.next ≤ p ∧ p < h.next + n))
    (hN : N.Nodup) (hN2 : ∀ p ∈ N, h.next ≤ p ∧ p < h.next + n) : Chg h O h' O' := by
  subst e
  refine ⟨?_, by omega, ?_, ?_, ?_, ?_⟩
  · intro hf p hp
    rcases (hl p).1 hp with h1 | h1
    · have := hf p h1; omega
    · omega
  · intro hO hnd
    refine List.nodup_append'.2 ⟨hnd, hN, ?_⟩
    intro p hp hp'
    have := hO p hp; have := hN2 p hp'; omega
  · intro hO p hp
    rcases List.mem_append.1 hp with h1 | h1
    · exact (hl p).2 (.inl (hO p h1))
    · exact (hl p).2 (.inr (hN2 p h1))
  · intro p hp
    rcases List.mem_append.1 hp with h1 | h1
    · exact .inl h1
    · exact .inr (hN2 p h1).1
  · intro p _ hp; exact (hl p).2 (.inl hp)

theorem chg_refl (h : Heap) (O : List Nat) : Chg h O h O where
  fr := fun a => a
  mono := Nat.le_refl _
  nd := fun _ a => a
  live := fun a => a
  src := fun _ a => .inl a
  keep := fun _ _ a => a

theorem tidy_refl (h : Heap) (O : List Nat) : Tidy h O h O := by
  refine ⟨?_, fun _ a => a⟩
  intro p hp
  by_cases h1 : p ∈ O
  · exact .inr (.inl h1)
  · exact .inl ⟨hp, h1⟩

/-- Dropping a group's blocks without freeing them is no danger. -/
theorem chg_drop (h : Heap) (O : List Nat) : Chg h O h [] where
  fr := fun a => a
  mono := Nat.le_refl _
  nd := fun _ _ => List.nodup_nil
  live := fun _ p hp => by cases hp
  src := fun p hp => by cases hp
  keep := fun _ _ a => a

theorem chg_free {h h' : Heap} {O L : List Nat} (hn : h'.next = h.next)
    (hl : ∀ p, h'.live p = true ↔ h.live p = true ∧ p ∉ L) (hL : ∀ p ∈ L, p ∈ O) : Chg h O h' [] where
  fr := fun hf p hp => by have := hf p ((hl p).1 hp).1; omega
  mono := by omega
  nd := fun _ _ => List.nodup_nil
  live := fun _ p hp => by cases hp
  src := fun p hp => by cases hp
  keep := fun p hp hlp => (hl p).2 ⟨hlp, fun h1 => hp (hL p h1)⟩

theorem tidy_free {h h' : Heap} {O : List Nat} (hu : h'.user = h.user)
    (hl : ∀ p, h'.live p = true ↔ h.live p = true ∧ p ∉ O) : Tidy h O h' [] where
  left := fun p hp => .inl ((hl p).1 hp)
  user := fun p hp => by rw [hu]; exact hp

theorem tidy_alloc {h h' : Heap} {O O' : List Nat} {n : Nat} (hO : ∀ p ∈ O, p ∈ O')
    (hl : ∀ p, h'.live p = true ↔ h.live p = true ∨ (h.next ≤ p ∧ p < h.next + n))
    (hN : ∀ p, h.next ≤ p ∧ p < h.next + n → p ∈ O') (hu : ∀ p, h.user p = true → h'.user p = true) : Tidy h O h' O' where
  left := fun p hp => by
    rcases (hl p).1 hp with h1 | h1
    · by_cases h2 : p ∈ O
      · exact .inr (.inl (hO p h2))
      · exact .inl ⟨h1, h2⟩
    · exact .inr (.inl (hN p h1))
  user := hu

/-! ## apop_mcmc -/

def mcmcOwn (g : Mcmc) : List Nat := if g.props.length = 0 then [] else g.arr :: g.props

/-- What is not a copy is the user's. -/
def mcmcGood (g : Mcmc) (h : Heap) : Prop := g.isCp = false → ∀ p ∈ mcmcOwn g, h.user p = true

theorem allocs_mem {a n p : Nat} (hp : p ∈ a :: blocks (a + 1) n) : a ≤ p ∧ p < a + (n + 1) := by
  rcases List.mem_cons.1 hp with h1 | h1
  · omega
  · rw [mem_blocks] at h1; omega

theorem allocs_nodup (a n : Nat) : (a :: blocks (a + 1) n).Nodup := by
  rw [List.nodup_cons]
  exact ⟨by rw [mem_blocks]; omega, nodup_blocks _ _⟩

theorem mem_allocs {a n p : Nat} (hp : a ≤ p ∧ p < a + (n + 1)) : p ∈ a :: blocks (a + 1) n := by
  rw [List.mem_cons, mem_blocks]; omega

theorem blocks_length (a n : Nat) : (blocks a n).length = n := by unfold blocks; simp

theorem mcmcFree_eq (h : Heap) (g : Mcmc) :
    mcmcFree h g = if g.isCp then h.frees (if g.props.length = 0 then [] else g.props ++ [g.arr]) else .ok h := by
  unfold mcmcFree
  by_cases hcp : g.isCp = true
  · rw [if_pos hcp, if_pos hcp]
    by_cases hz : g.props.length = 0
    · simp only [hz, if_true]
      rw [List.length_eq_zero_iff.1 hz]; rfl
    · simp only [if_neg hz]
      rw [frees_append]
      cases h.frees g.props with
      | ub => rfl
      | ok h1 => simp only [Res.bind]; rw [freeOpt_frees]; rfl
  · rw [if_neg hcp, if_neg hcp]

theorem mcmc_own_perm (g : Mcmc) : (if g.props.length = 0 then [] else g.props ++ [g.arr]).Perm (mcmcOwn g) := by
  unfold mcmcOwn
  split_ifs
  · exact List.Perm.refl _
  · exact List.perm_append_singleton _ _

theorem mcmc_sound : Sound mcmc mcmcOwn (fun _ => True) .any where
  init := fun h k => by
    refine ⟨?_, trivial⟩
    show Chg h [] (mcmcInit h k).1 (mcmcOwn (mcmcInit h k).2)
    unfold mcmcInit
    split_ifs with hk
    · exact chg_refl h []
    · refine chg_alloc (n := k + 1) (N := h.next :: blocks (h.next + 1) k) ?_ (allocsUser_next _ _) (allocsUser_live _ _)
        (allocs_nodup _ _) (fun p hp => allocs_mem hp)
      unfold mcmcOwn; simp only [blocks_length, if_neg hk]; rfl
  copy := fun h g _ hl => by
    show ∃ h' g1 g2, mcmcCopy h g = _ ∧ _
    unfold mcmcCopy
    by_cases hz : g.props.length = 0
    · rw [if_neg (by omega)]
      refine ⟨_, _, _, rfl, ?_, fun _ => ⟨trivial, trivial⟩⟩
      have : mcmcOwn g = [] := by unfold mcmcOwn; rw [if_pos hz]
      rw [this]; exact chg_refl h []
    · rw [if_pos (by omega)]
      have e : mcmcOwn g = g.arr :: g.props := by unfold mcmcOwn; rw [if_neg hz]
      rw [use_ok (by rw [← e]; exact hl)]
      refine ⟨_, _, _, rfl, ?_, fun _ => ⟨trivial, trivial⟩⟩
      refine chg_alloc (n := g.props.length + 1) (N := h.next :: blocks (h.next + 1) g.props.length) ?_
        (allocs_next _ _) (allocs_live _ _) (allocs_nodup _ _) (fun p hp => allocs_mem hp)
      congr 1
      unfold mcmcOwn; simp only [blocks_length, if_neg hz]
  use := fun h g n hl => by
    show ∃ h' g', mcmcUse h g n = _ ∧ _
    unfold mcmcUse
    by_cases hz : g.props.length = 0
    · rw [if_pos hz]
      refine ⟨_, _, rfl, ?_⟩
      have : mcmcOwn g = [] := by unfold mcmcOwn; rw [if_pos hz]
      rw [this]
      refine chg_alloc (n := n + 2) (N := h.next :: blocks (h.next + 1) (n + 1)) ?_
        (allocs_next _ _) (allocs_live _ _) (allocs_nodup _ _) (fun p hp => allocs_mem hp)
      unfold mcmcOwn; simp only [blocks_length]; rfl
    · rw [if_neg hz]
      have e : mcmcOwn g = g.arr :: g.props := by unfold mcmcOwn; rw [if_neg hz]
      rw [use_ok (by rw [← e]; exact hl)]
      exact ⟨_, _, rfl, chg_refl _ _⟩
  free := fun h g hnd hl => by
    show ∃ h', mcmcFree h g = _ ∧ _
    rw [mcmcFree_eq]
    have hp := mcmc_own_perm g
    by_cases hcp : g.isCp = true
    · rw [if_pos hcp]
      obtain ⟨h', e, e1, e2, e3⟩ := frees_ok _ h (hp.nodup_iff.2 hnd) (fun p h1 => hl p (hp.mem_iff.1 h1))
      exact ⟨h', e, chg_free e1 e3 (fun p h1 => hp.mem_iff.1 h1)⟩
    · rw [if_neg hcp]
      exact ⟨_, rfl, chg_drop _ _⟩

theorem frees_sub {L : List Nat} : ∀ {h h' : Heap}, h.frees L = .ok h' →
    h'.user = h.user ∧ ∀ p, h'.live p = true → h.live p = true ∧ p ∉ L := by
  induction L with
  | nil => intro h h' e; cases e; exact ⟨rfl, fun p hp => ⟨hp, by simp⟩⟩
  | cons q L ih =>
    intro h h' e
    unfold Heap.frees Heap.free at e
    split_ifs at e with hq
    · obtain ⟨e1, e2⟩ := ih e
      refine ⟨e1, fun p hp => ?_⟩
      obtain ⟨h1, h2⟩ := e2 p hp
      simp only at h1
      split_ifs at h1 with h3
      exact ⟨h1, by simp [h3, h2]⟩
    · cases e

theorem mcmc_tidy : SoundTidy mcmc mcmcOwn mcmcGood .any (fun _ => True) where
  mono := fun g h h' hu hg hcp p hp => hu p (hg hcp p hp)
  init := fun h k => by
    show Tidy h [] (mcmcInit h k).1 (mcmcOwn (mcmcInit h k).2) ∧ mcmcGood (mcmcInit h k).2 (mcmcInit h k).1
    unfold mcmcInit
    split_ifs with hk
    · exact ⟨tidy_refl h [], fun _ p hp => by cases hp⟩
    · have e : mcmcOwn ⟨h.next, blocks (h.next + 1) k, false⟩ = h.next :: blocks (h.next + 1) k := by
        unfold mcmcOwn; simp only [blocks_length, if_neg hk]
      refine ⟨?_, ?_⟩
      · refine tidy_alloc (n := k + 1) (fun p hp => by cases hp) (allocsUser_live _ _) ?_ ?_
        · intro p hp; rw [e]; exact mem_allocs hp
        · intro p hp; exact (allocsUser_user _ _ _).2 (.inl hp)
      · intro _ p hp
        rw [e] at hp
        exact (allocsUser_user _ _ _).2 (.inr (allocs_mem hp))
  copy := fun h g h' g1 g2 _ hg hc => by
    have hc : mcmcCopy h g = _ := hc
    unfold mcmcCopy at hc
    by_cases hz : g.props.length = 0
    · rw [if_neg (by omega)] at hc
      cases hc
      have : mcmcOwn g = [] := by unfold mcmcOwn; rw [if_pos hz]
      exact ⟨by rw [this]; exact tidy_refl h [], hg, hg⟩
    · rw [if_pos (by omega)] at hc
      cases hu : h.use (g.arr :: g.props) with
      | ub => rw [hu] at hc; cases hc
      | ok _ =>
        rw [hu] at hc; cases hc
        have e : mcmcOwn ⟨h.next, blocks (h.next + 1) g.props.length, true⟩ = h.next :: blocks (h.next + 1) g.props.length := by
          unfold mcmcOwn; simp only [blocks_length, if_neg hz]
        refine ⟨?_, ?_, ?_⟩
        · refine tidy_alloc (n := g.props.length + 1) (fun p hp => List.mem_append.2 (.inl hp)) (allocs_live _ _) ?_ ?_
          · intro p hp; rw [e]; exact List.mem_append.2 (.inr (mem_allocs hp))
          · intro p hp; rw [allocs_user]; exact hp
        · intro hcp p hp; rw [allocs_user]; exact hg hcp p hp
        · intro hcp; cases hcp
  use := fun h g n h' g' hg hc => by
    have hc : mcmcUse h g n = _ := hc
    unfold mcmcUse at hc
    by_cases hz : g.props.length = 0
    · rw [if_pos hz] at hc
      cases hc
      have e0 : mcmcOwn g = [] := by unfold mcmcOwn; rw [if_pos hz]
      have e : mcmcOwn ⟨h.next, blocks (h.next + 1) (n + 1), true⟩ = h.next :: blocks (h.next + 1) (n + 1) := by
        unfold mcmcOwn; simp only [blocks_length]; rfl
      refine ⟨?_, fun hcp => by cases hcp⟩
      rw [e0]
      refine tidy_alloc (n := n + 2) (fun p hp => by cases hp) (allocs_live _ _) ?_ ?_
      · intro p hp; rw [e]; exact mem_allocs hp
      · intro p hp; rw [allocs_user]; exact hp
    · rw [if_neg hz] at hc
      cases hu : h.use (g.arr :: g.props) with
      | ub => rw [hu] at hc; cases hc
      | ok _ => rw [hu] at hc; cases hc; exact ⟨tidy_refl _ _, hg⟩
  free := fun h g h' hg hc => by
    have hc : mcmcFree h g = _ := hc
    rw [mcmcFree_eq] at hc
    have hp := mcmc_own_perm g
    by_cases hcp : g.isCp = true
    · rw [if_pos hcp] at hc
      obtain ⟨e1, e2⟩ := frees_sub hc
      exact ⟨fun p h1 => .inl ⟨(e2 p h1).1, fun h2 => (e2 p h1).2 (hp.mem_iff.2 h2)⟩, fun p hp => by rw [e1]; exact hp⟩
    · rw [if_neg hcp] at hc
      cases hc
      refine ⟨fun p hp => ?_, fun _ a => a⟩
      by_cases h1 : p ∈ mcmcOwn g
      · exact .inr (.inr (hg (by simpa using hcp) p h1))
      · exact .inl ⟨hp, h1⟩

/-! ## apop_lm -/

def lmOwn (g : Lm) : List Nat := g.dist :: g.instruments.toList

theorem alloc_live (h : Heap) (p : Nat) : h.alloc.live p = true ↔ h.live p = true ∨ (h.next ≤ p ∧ p < h.next + 1) :=
  allocs_live h 1 p

theorem allocUser_live (h : Heap) (p : Nat) : h.allocUser.live p = true ↔ h.live p = true ∨ (h.next ≤ p ∧ p < h.next + 1) :=
  allocsUser_live h 1 p

theorem allocBy_live (h : Heap) (b : Bool) (p : Nat) :
    (h.allocBy b).live p = true ↔ h.live p = true ∨ (h.next ≤ p ∧ p < h.next + 1) := by
  unfold Heap.allocBy; split_ifs
  · exact allocUser_live h p
  · exact alloc_live h p

theorem allocBy_next (h : Heap) (b : Bool) : (h.allocBy b).next = h.next + 1 := by
  unfold Heap.allocBy; split_ifs <;> rfl

theorem allocBy_user (h : Heap) (b : Bool) (p : Nat) :
    (h.allocBy b).user p = true ↔ h.user p = true ∨ (b = true ∧ p = h.next) := by
  unfold Heap.allocBy; split_ifs with hb
  · simp only [Heap.allocUser]
    split_ifs with h1
    · simp [h1, hb]
    · simp [h1]
  · simp [hb, Heap.alloc]

theorem two_live (h : Heap) (b c : Bool) (p : Nat) :
    ((h.allocBy b).allocBy c).live p = true ↔ h.live p = true ∨ (h.next ≤ p ∧ p < h.next + 2) := by
  rw [allocBy_live, allocBy_live, allocBy_next]
  constructor
  · rintro ((h1 | h1) | h1)
    · exact .inl h1
    · right; omega
    · right; omega
  · rintro (h1 | h1)
    · exact .inl (.inl h1)
    · by_cases h2 : p = h.next
      · left; right; omega
      · right; omega

theorem lm_sound : Sound lm lmOwn (fun _ => True) .any where
  init := fun h a => by
    refine ⟨?_, trivial⟩
    obtain ⟨i, d⟩ := a
    show Chg h [] (lmInit h ⟨i, d⟩).1 (lmOwn (lmInit h ⟨i, d⟩).2)
    cases i
    · refine chg_alloc (n := 1) (N := [h.next]) rfl (allocBy_next h d) (allocBy_live h d) (by simp) ?_
      intro p hp; simp at hp; omega
    · refine chg_alloc (n := 2) (N := [h.next + 1, h.next]) rfl ?_ (two_live h true d) (by simp) ?_
      · show ((h.allocBy true).allocBy d).next = _
        rw [allocBy_next, allocBy_next]
      · intro p hp; simp at hp; omega
  copy := fun h g _ hl => by
    show ∃ h' g1 g2, lmCopy h g = _ ∧ _
    obtain ⟨i, d⟩ := g
    unfold lmCopy
    rw [use_ok (ps := d :: i.toList) hl]
    cases i with
    | none =>
      refine ⟨_, _, _, rfl, ?_, fun _ => ⟨trivial, trivial⟩⟩
      refine chg_alloc (n := 1) (N := [h.next]) rfl rfl (alloc_live h) (by simp) ?_
      intro p hp; simp at hp; omega
    | some q =>
      refine ⟨_, _, _, rfl, ?_, fun _ => ⟨trivial, trivial⟩⟩
      refine chg_alloc (n := 2) (N := [h.next + 1, h.next]) rfl rfl (two_live h false false) (by simp) ?_
      intro p hp; simp at hp; omega
  use := fun h g u hl => by
    show ∃ h' g', lmUse h g u = _ ∧ _
    unfold lmUse
    rw [use_ok (ps := g.dist :: g.instruments.toList) hl]
    exact ⟨_, _, rfl, chg_refl _ _⟩
  free := fun h g hnd hl => by
    show ∃ h', lmFree h g = _ ∧ _
    obtain ⟨h', e, e1, e2, e3⟩ := frees_ok [g.dist] h (by simp) (fun p hp => hl p (by simp at hp; simp [lmOwn, hp]))
    refine ⟨h', ?_, chg_free e1 e3 (fun p hp => by simp at hp; simp [lmOwn, hp])⟩
    rw [← e]; unfold lmFree Heap.frees
    cases h.free g.dist <;> rfl

/-! ## Groups that must not be copied -/

def mixOwn (g : Mix) : List Nat := [g.sizes, g.list, g.weights, g.refct] ++ (g.cmf.toList ++ g.nextW.toList)

theorem mix_sound : Sound mix mixOwn (fun _ => True) .never where
  init := fun h a => by
    refine ⟨?_, trivial⟩
    refine chg_alloc (n := 4) (N := [h.next + 1, h.next, h.next + 3, h.next + 2]) rfl (allocs_next h 4) (allocs_live h 4) (by simp) ?_
    intro p hp; simp at hp; omega
  copy := fun h g hp => by rcases hp with hp | ⟨hp, _⟩ <;> cases hp
  use := fun h g ll hl => by
    show ∃ h' g', mixUse h g ll = _ ∧ _
    unfold mixUse
    rw [use_ok (fun p hp => hl p (by simp [mixOwn] at hp ⊢; tauto))]
    simp only [Res.bind]
    cases ll
    · cases hc : g.cmf with
      | none =>
        refine ⟨_, _, rfl, ?_⟩
        have c := chg_alloc (h := h) (h' := h.alloc) (O := mixOwn g) (N := [h.next]) (n := 1) rfl rfl (alloc_live h) (by simp)
          (by intro p hp; simp at hp; omega)
        have hperm : (mixOwn g ++ [h.next]).Perm (mixOwn { g with cmf := some h.next }) := by
          simp only [mixOwn, hc, Option.toList, List.nil_append, List.append_assoc, List.cons_append]
          refine List.Perm.cons _ (List.Perm.cons _ (List.Perm.cons _ (List.Perm.cons _ ?_)))
          exact List.perm_append_singleton _ _
        exact ⟨c.fr, c.mono, fun a b => hperm.nodup_iff.1 (c.nd a b), fun a p hp => c.live a p (hperm.mem_iff.2 hp),
          fun p hp => c.src p (hperm.mem_iff.2 hp), c.keep⟩
      | some q => exact ⟨_, _, rfl, chg_refl _ _⟩
    · cases hc : g.nextW with
      | none =>
        refine ⟨_, _, rfl, ?_⟩
        refine chg_alloc (N := [h.next]) (n := 1) ?_ rfl (alloc_live h) (by simp) (by intro p hp; simp at hp; omega)
        simp [mixOwn, hc]
      | some q => exact ⟨_, _, rfl, chg_refl _ _⟩
  free := fun h g hnd hl => by
    show ∃ h', mixFree h g = _ ∧ _
    have hsub : (g.sizes :: g.nextW.toList).Sublist (mixOwn g) := by
      show (g.sizes :: g.nextW.toList).Sublist (g.sizes :: ([g.list, g.weights, g.refct] ++ (g.cmf.toList ++ g.nextW.toList)))
      refine List.Sublist.cons_cons _ ?_
      exact (List.sublist_append_right _ _).trans (List.sublist_append_right _ _)
    obtain ⟨h', e, e1, e2, e3⟩ := frees_ok (g.sizes :: g.nextW.toList) h (hnd.sublist hsub) (fun p hp => hl p (hsub.subset hp))
    refine ⟨h', ?_, chg_free e1 e3 (fun p hp => hsub.subset hp)⟩
    rw [← e]; unfold mixFree Heap.frees
    cases h.free g.sizes with
    | ub => rfl
    | ok h1 => simp only [Res.bind]; rw [freeOpt_frees]

def armsOwn (g : Arms) : List Nat := [g.p, g.state]

theorem arms_sound : Sound arms armsOwn (fun _ => True) .never where
  init := fun h a => by
    refine ⟨?_, trivial⟩
    refine chg_alloc (n := 2) (N := [h.next + 1, h.next]) rfl (allocs_next h 2) (allocs_live h 2) (by simp) ?_
    intro p hp; simp at hp; omega
  copy := fun h g hp => by rcases hp with hp | ⟨hp, _⟩ <;> cases hp
  use := fun h g u hl => by
    show ∃ h' g', armsUse h g u = _ ∧ _
    unfold armsUse
    rw [use_ok (fun p hp => hl p (by simp [armsOwn] at hp ⊢; tauto))]
    exact ⟨_, _, rfl, chg_refl _ _⟩
  free := fun h g hnd hl => by
    show ∃ h', armsFree h g = _ ∧ _
    unfold armsFree
    rw [use_ok (fun p hp => hl p (by simp [armsOwn] at hp ⊢; tauto))]
    obtain ⟨h', e, e1, e2, e3⟩ := frees_ok [g.p, g.state] h hnd hl
    exact ⟨h', e, chg_free e1 e3 (fun p hp => hp)⟩

theorem arms_tidy : SoundTidy arms armsOwn (fun _ _ => True) .never (fun _ => True) where
  mono := fun _ _ _ _ _ => trivial
  init := fun h a => by
    refine ⟨?_, trivial⟩
    refine tidy_alloc (n := 2) (fun p hp => by cases hp) (allocs_live h 2) ?_ ?_
    · intro p hp; show p ∈ [h.next + 1, h.next]; simp; omega
    · intro p hp; show (h.allocs 2).user p = true; rw [allocs_user]; exact hp
  copy := fun h g h' g1 g2 hp => by rcases hp with hp | ⟨hp, _⟩ <;> cases hp
  use := fun h g u h' g' _ hc => by
    have hc : armsUse h g u = _ := hc
    unfold armsUse at hc
    cases hu : h.use [g.state, g.p] with
    | ub => rw [hu] at hc; cases hc
    | ok _ => rw [hu] at hc; cases hc; exact ⟨tidy_refl _ _, trivial⟩
  free := fun h g h' _ hc => by
    have hc : armsFree h g = _ := hc
    unfold armsFree at hc
    cases hu : h.use [g.state] with
    | ub => rw [hu] at hc; cases hc
    | ok _ =>
      rw [hu] at hc
      obtain ⟨e1, e2⟩ := frees_sub (L := [g.p, g.state]) hc
      exact ⟨fun p h1 => .inl (e2 p h1), fun p hp => by rw [e1]; exact hp⟩

def loessOwn (g : Loess) : List Nat := g.arrays ++ [g.weights]

theorem loess_live (h : Heap) (b : Bool) (p : Nat) :
    ((h.allocs 13).allocBy b).live p = true ↔ h.live p = true ∨ (h.next ≤ p ∧ p < h.next + 14) := by
  rw [allocBy_live, allocs_live, allocs_next]
  constructor
  · rintro ((h1 | h1) | h1)
    · exact .inl h1
    · right; omega
    · right; omega
  · rintro (h1 | h1)
    · exact .inl (.inl h1)
    · by_cases h2 : p < h.next + 13
      · left; right; omega
      · right; omega

theorem mem_loess (a p : Nat) : p ∈ blocks a 13 ++ [a + 13] ↔ a ≤ p ∧ p < a + 14 := by
  simp only [List.mem_append, mem_blocks, List.mem_singleton]; omega

theorem loess_sound : Sound loess loessOwn (fun _ => True) .never where
  init := fun h a => by
    refine ⟨?_, trivial⟩
    refine chg_alloc (n := 14) (N := blocks h.next 13 ++ [h.next + 13]) rfl ?_ (loess_live h a) ?_ ?_
    · show ((h.allocs 13).allocBy a).next = _
      rw [allocBy_next, allocs_next]
    · rw [List.nodup_append']
      refine ⟨nodup_blocks _ _, by simp, ?_⟩
      intro p hp hp'; rw [mem_blocks] at hp; simp at hp'; omega
    · intro p hp; exact (mem_loess _ _).1 hp
  copy := fun h g hp => by rcases hp with hp | ⟨hp, _⟩ <;> cases hp
  use := fun h g u hl => by
    show ∃ h' g', loessUse h g u = _ ∧ _
    unfold loessUse
    rw [use_ok (ps := g.arrays ++ [g.weights]) hl]
    exact ⟨_, _, rfl, chg_refl _ _⟩
  free := fun h g hnd hl => by
    obtain ⟨h', e, e1, e2, e3⟩ := frees_ok (g.arrays ++ [g.weights]) h hnd hl
    exact ⟨h', e, chg_free e1 e3 (fun p hp => hp)⟩

theorem loess_tidy : SoundTidy loess loessOwn (fun _ _ => True) .never (fun _ => True) where
  mono := fun _ _ _ _ _ => trivial
  init := fun h a => by
    refine ⟨?_, trivial⟩
    refine tidy_alloc (n := 14) (fun p hp => by cases hp) (loess_live h a) ?_ ?_
    · intro p hp; exact (mem_loess _ _).2 hp
    · intro p hp; exact (allocBy_user _ _ _).2 (.inl (by rw [allocs_user]; exact hp))
  copy := fun h g h' g1 g2 hp => by rcases hp with hp | ⟨hp, _⟩ <;> cases hp
  use := fun h g u h' g' _ hc => by
    have hc : loessUse h g u = _ := hc
    unfold loessUse at hc
    cases hu : h.use (g.arrays ++ [g.weights]) with
    | ub => rw [hu] at hc; cases hc
    | ok _ => rw [hu] at hc; cases hc; exact ⟨tidy_refl _ _, trivial⟩
  free := fun h g h' _ hc => by
    obtain ⟨e1, e2⟩ := frees_sub (L := g.arrays ++ [g.weights]) hc
    exact ⟨fun p h1 => .inl (e2 p h1), fun p hp => by rw [e1]; exact hp⟩

/-! ## apop_dconstrain -/

def dconOwn (g : Dcon) : List Nat := g.last.toList

theorem dcon_sound : Sound dcon dconOwn (fun g => g.last = none) .unused where
  init := fun h a => ⟨chg_refl h [], rfl⟩
  copy := fun h g hp _ => by
    have hf : g.last = none := by
      rcases hp with hp | ⟨_, hp⟩
      · cases hp
      · exact hp
    refine ⟨_, _, _, rfl, ?_, fun _ => ⟨hf, hf⟩⟩
    simp only [dconOwn, hf, Option.toList, List.append_nil]; exact chg_refl h []
  use := fun h g u hl => by
    show ∃ h' g', dconUse h g u = _ ∧ _
    obtain ⟨l, r⟩ := g
    cases l with
    | none =>
      refine ⟨_, _, rfl, ?_⟩
      refine chg_alloc (n := 1) (N := [h.next]) rfl rfl (alloc_live h) (by simp) ?_
      intro p hp; simp at hp; omega
    | some q =>
      unfold dconUse
      simp only
      rw [use_ok (ps := [q]) hl]
      exact ⟨_, _, rfl, chg_refl _ _⟩
  free := fun h g hnd hl => by
    show ∃ h', dconFree h g = _ ∧ _
    unfold dconFree
    split_ifs
    · rw [freeOpt_frees]
      obtain ⟨h', e, e1, e2, e3⟩ := frees_ok _ h hnd hl
      exact ⟨h', e, chg_free e1 e3 (fun p hp => hp)⟩
    · exact ⟨_, rfl, chg_drop _ _⟩

/-! ## What the user allocated stays -/

theorem frees_keep {L : List Nat} : ∀ {h h' : Heap}, h.frees L = .ok h' →
    h'.next = h.next ∧ ∀ p, h.live p = true → p ∉ L → h'.live p = true := by
  induction L with
  | nil => intro h h' e; cases e; exact ⟨rfl, fun p hp _ => hp⟩
  | cons q L ih =>
    intro h h' e
    unfold Heap.frees Heap.free at e
    split_ifs at e with hq
    · obtain ⟨e1, e2⟩ := ih e
      refine ⟨e1, fun p hp hL => e2 p ?_ ?_⟩
      · simp only; rw [if_neg (fun h1 : p = q => hL (by simp [h1]))]; exact hp
      · exact fun h1 => hL (by simp [h1])
    · cases e

/-- The user's blocks are allocated, and no group thinks it owns one of them. -/
structure UInv (s : Sess Mcmc) : Prop where
  live : ∀ p, s.heap.user p = true → s.heap.live p = true ∧ p < s.heap.next
  own : ∀ (i : Nat) (g : Mcmc), s.groups[i]? = some (some g) → g.isCp = true →
    ∀ p ∈ mcmcOwn g, s.heap.user p = false ∧ p < s.heap.next

theorem get_inv {G : Type} {s : Sess G} {i : Nat} {g : G} (h : s.get i = .ok g) : s.groups[i]? = some (some g) := by
  unfold Sess.get at h
  split at h
  · rename_i g' hg; cases h; exact hg
  · cases h

theorem bind_ok {α β : Type} {r : Res α} {f : α → Res β} {b : β} (h : r.bind f = .ok b) : ∃ a, r = .ok a ∧ f a = .ok b := by
  cases r with
  | ub => cases h
  | ok a => exact ⟨a, rfl, h⟩

theorem notuser_mono {h h' : Heap} {n : Nat} (hu : ∀ p, h'.user p = true → h.user p = true ∨ (h.next ≤ p ∧ p < h.next + n))
    {p : Nat} (h1 : h.user p = false) (h2 : p < h.next) : h'.user p = false := by
  by_contra hc
  rcases hu p (by simpa using hc) with h3 | h3
  · rw [h1] at h3; cases h3
  · omega

theorem uinv_set {s : Sess Mcmc} (inv : UInv s) {h' : Heap} {n : Nat}
    (hl : ∀ p, h'.user p = true → h'.live p = true ∧ p < h'.next)
    (hu : ∀ p, h'.user p = true → s.heap.user p = true ∨ (s.heap.next ≤ p ∧ p < s.heap.next + n))
    (hn : s.heap.next ≤ h'.next) {l : List (Option Mcmc)}
    (hg : ∀ (i : Nat) (g : Mcmc), l[i]? = some (some g) → s.groups[i]? = some (some g) ∨
      (g.isCp = true → ∀ p ∈ mcmcOwn g, h'.user p = false ∧ p < h'.next)) : UInv ⟨h', l⟩ := by
  refine ⟨hl, fun i g hig hcp p hp => ?_⟩
  rcases hg i g hig with h1 | h1
  · obtain ⟨a, b⟩ := inv.own i g h1 hcp p hp
    exact ⟨notuser_mono hu a b, by simp only; omega⟩
  · exact h1 hcp p hp

theorem mcmc_user_step {s s' : Sess Mcmc} (inv : UInv s) (o : Op Nat Nat) (h : step mcmc s o = .ok s') : UInv s' := by
  have hal : ∀ n p, (s.heap.allocs n).user p = true → (s.heap.allocs n).live p = true ∧ p < (s.heap.allocs n).next := by
    intro n p hp
    rw [allocs_user] at hp
    exact ⟨(allocs_live _ _ _).2 (.inl (inv.live p hp).1), by rw [allocs_next]; have := (inv.live p hp).2; omega⟩
  have hnew : ∀ n b, ∀ p ∈ mcmcOwn ⟨s.heap.next, blocks (s.heap.next + 1) n, b⟩,
      (s.heap.allocs (n + 1)).user p = false ∧ p < (s.heap.allocs (n + 1)).next := by
    intro n b p hp
    have hp2 : s.heap.next ≤ p ∧ p < s.heap.next + (n + 1) := by
      unfold mcmcOwn at hp
      split_ifs at hp
      · cases hp
      · exact allocs_mem hp
    rw [allocs_user, allocs_next]
    refine ⟨?_, hp2.2⟩
    by_contra hc
    have := (inv.live p (by simpa using hc)).2
    omega
  cases o with
  | init k =>
    simp only [step, Res.ok.injEq] at h
    subst h
    by_cases hk : k = 0
    · have e : mcmc.init s.heap k = (s.heap, ⟨0, [], false⟩) := by show mcmcInit s.heap k = _; unfold mcmcInit; rw [if_pos hk]
      rw [e]
      refine uinv_set (n := 0) inv inv.live (fun p hp => .inl hp) (Nat.le_refl _) ?_
      intro i g hg
      by_cases hi : i < s.groups.length
      · rw [List.getElem?_append_left hi] at hg; exact .inl hg
      · by_cases hi2 : i = s.groups.length
        · subst hi2; rw [List.getElem?_concat_length] at hg; cases hg; exact .inr (fun hcp => by cases hcp)
        · rw [List.getElem?_eq_none (by simp; omega)] at hg; cases hg
    · have e : mcmc.init s.heap k = (s.heap.allocsUser (k + 1), ⟨s.heap.next, blocks (s.heap.next + 1) k, false⟩) := by
        show mcmcInit s.heap k = _; unfold mcmcInit; rw [if_neg hk]
      rw [e]
      refine uinv_set (n := k + 1) inv ?_ (fun p hp => (allocsUser_user _ _ _).1 hp) (by rw [allocsUser_next]; omega) ?_
      · intro p hp
        rw [allocsUser_next]
        rcases (allocsUser_user _ _ _).1 hp with h1 | h1
        · exact ⟨(allocsUser_live _ _ _).2 (.inl (inv.live p h1).1), by have := (inv.live p h1).2; omega⟩
        · exact ⟨(allocsUser_live _ _ _).2 (.inr h1), h1.2⟩
      · intro i g hg
        by_cases hi : i < s.groups.length
        · rw [List.getElem?_append_left hi] at hg; exact .inl hg
        · by_cases hi2 : i = s.groups.length
          · subst hi2; rw [List.getElem?_concat_length] at hg; cases hg; exact .inr (fun hcp => by cases hcp)
          · rw [List.getElem?_eq_none (by simp; omega)] at hg; cases hg
  | copy i =>
    simp only [step] at h
    obtain ⟨g, hg, h⟩ := bind_ok h
    obtain ⟨r, hr, h⟩ := bind_ok h
    have hg := get_inv hg
    have hil : i < s.groups.length := by
      by_contra h; rw [List.getElem?_eq_none (by omega)] at hg; cases hg
    cases h
    have hr : mcmcCopy s.heap g = _ := hr
    unfold mcmcCopy at hr
    by_cases hz : g.props.length = 0
    · rw [if_neg (by omega)] at hr
      cases hr
      refine uinv_set (n := 0) inv inv.live (fun p hp => .inl hp) (Nat.le_refl _) ?_
      intro j g' hg'
      have e0 : mcmcOwn g = [] := by unfold mcmcOwn; rw [if_pos hz]
      by_cases hj : j < s.groups.length
      · rw [List.getElem?_append_left (by simp; exact hj)] at hg'
        by_cases hji : j = i
        · subst hji; rw [List.getElem?_set_self hil] at hg'; cases hg'; exact .inl hg
        · rw [List.getElem?_set_ne (by omega)] at hg'; exact .inl hg'
      · by_cases hi2 : j = (s.groups.set i (some g)).length
        · rw [hi2, List.getElem?_concat_length] at hg'; cases hg'
          exact .inr (fun _ p hp => by rw [e0] at hp; cases hp)
        · rw [List.getElem?_eq_none (by simp at hi2 ⊢; omega)] at hg'; cases hg'
    · rw [if_pos (by omega)] at hr
      obtain ⟨_, _, hr⟩ := bind_ok hr
      cases hr
      refine uinv_set (n := 0) inv (hal _) (fun p hp => .inl (by rw [allocs_user] at hp; exact hp)) (by rw [allocs_next]; omega) ?_
      intro j g' hg'
      by_cases hj : j < s.groups.length
      · rw [List.getElem?_append_left (by simp; exact hj)] at hg'
        by_cases hji : j = i
        · subst hji; rw [List.getElem?_set_self hil] at hg'; cases hg'; exact .inl hg
        · rw [List.getElem?_set_ne (by omega)] at hg'; exact .inl hg'
      · by_cases hi2 : j = (s.groups.set i (some g)).length
        · rw [hi2, List.getElem?_concat_length] at hg'; cases hg'
          exact .inr (fun _ p hp => hnew _ _ p hp)
        · rw [List.getElem?_eq_none (by simp at hi2 ⊢; omega)] at hg'; cases hg'
  | use i n =>
    simp only [step] at h
    obtain ⟨g, hg, h⟩ := bind_ok h
    obtain ⟨r, hr, h⟩ := bind_ok h
    have hg := get_inv hg
    have hil : i < s.groups.length := by
      by_contra h; rw [List.getElem?_eq_none (by omega)] at hg; cases hg
    cases h
    have hr : mcmcUse s.heap g n = _ := hr
    unfold mcmcUse at hr
    by_cases hz : g.props.length = 0
    · rw [if_pos hz] at hr
      cases hr
      refine uinv_set (n := 0) inv (hal _) (fun p hp => .inl (by rw [allocs_user] at hp; exact hp)) (by rw [allocs_next]; omega) ?_
      intro j g' hg'
      by_cases hji : j = i
      · subst hji; rw [List.getElem?_set_self hil] at hg'; cases hg'
        exact .inr (fun _ p hp => hnew _ _ p hp)
      · rw [List.getElem?_set_ne (by omega)] at hg'; exact .inl hg'
    · rw [if_neg hz] at hr
      obtain ⟨_, _, hr⟩ := bind_ok hr
      cases hr
      refine uinv_set (n := 0) inv inv.live (fun p hp => .inl hp) (Nat.le_refl _) ?_
      intro j g' hg'
      by_cases hji : j = i
      · subst hji; rw [List.getElem?_set_self hil] at hg'; cases hg'; exact .inl hg
      · rw [List.getElem?_set_ne (by omega)] at hg'; exact .inl hg'
  | free i =>
    simp only [step] at h
    obtain ⟨g, hg, h⟩ := bind_ok h
    obtain ⟨h', hr, h⟩ := bind_ok h
    have hg := get_inv hg
    have hil : i < s.groups.length := by
      by_contra h; rw [List.getElem?_eq_none (by omega)] at hg; cases hg
    cases h
    have hr : mcmcFree s.heap g = _ := hr
    rw [mcmcFree_eq] at hr
    have hgr : ∀ (j : Nat) (g' : Mcmc), (s.groups.set i none)[j]? = some (some g') → s.groups[j]? = some (some g') := by
      intro j g' hg'
      by_cases hji : j = i
      · subst hji; rw [List.getElem?_set_self hil] at hg'; cases hg'
      · rw [List.getElem?_set_ne (by omega)] at hg'; exact hg'
    by_cases hcp : g.isCp = true
    · rw [if_pos hcp] at hr
      obtain ⟨e1, e2⟩ := frees_keep hr
      obtain ⟨e3, _⟩ := frees_sub hr
      have hp := mcmc_own_perm g
      refine uinv_set (n := 0) inv ?_ (fun p hp => .inl (by rw [e3] at hp; exact hp)) (by omega) (fun j g' hg' => .inl (hgr j g' hg'))
      intro p hpu
      rw [e3] at hpu
      refine ⟨e2 p (inv.live p hpu).1 ?_, by rw [e1]; exact (inv.live p hpu).2⟩
      intro hm
      have := (inv.own i g hg hcp p (hp.mem_iff.1 hm)).1
      rw [hpu] at this; cases this
    · rw [if_neg hcp] at hr
      cases hr
      exact uinv_set (n := 0) inv inv.live (fun p hp => .inl hp) (Nat.le_refl _) (fun j g' hg' => .inl (hgr j g' hg'))

theorem mcmc_user (ops : List (Op Nat Nat)) : ∀ {s s' : Sess Mcmc}, UInv s → run mcmc s ops = .ok s' → UInv s' := by
  induction ops with
  | nil => intro s s' inv h; cases h; exact inv
  | cons o os ih =>
    intro s s' inv h
    unfold run at h
    obtain ⟨s1, h1, h2⟩ := bind_ok h
    exact ih (mcmc_user_step inv o h1) h2

/-! ## Theorems -/

/-- Does a program run without undefined behaviour? -/
def Runs {A U G : Type} (c : Code A U G) (ops : List (Op A U)) : Prop := ∃ s, exec c ops = .ok s

/-- Is everything that the library allocated freed at the end? -/
def Clean {A U G : Type} (c : Code A U G) (ops : List (Op A U)) : Prop :=
  ∃ s, exec c ops = .ok s ∧ ∀ p, s.heap.live p = true → s.heap.user p = true

/-- Is everything that the user allocated still there at the end? -/
def UserKept {A U G : Type} (c : Code A U G) (ops : List (Op A U)) : Prop :=
  ∃ s, exec c ops = .ok s ∧ ∀ p, s.heap.user p = true → s.heap.live p = true

/-- Have all groups been freed at the end? -/
def AllFreed {A U : Type} (ops : List (Op A U)) : Prop := ∀ k ∈ finalMarks [] ops, k = .dead

/-- **C183, MCMC settings.** However a program sets up, copies, uses (with any number of parameter blocks) and frees MCMC
settings, with proposals of its own or the default ones, nothing is used after it was freed or freed twice; proposals the
user allocated are not freed; and when all groups have been freed all other proposals have been. -/
theorem C183_mcmc (ops : List (Op Nat Nat)) (h : Proper .any [] ops) :
    Runs mcmc ops ∧ UserKept mcmc ops ∧ (AllFreed ops → Clean mcmc ops) := by
  obtain ⟨s, h1, h2⟩ := exec_ok (good := mcmcGood) mcmc_sound ops h
  refine ⟨⟨s, h1⟩, ⟨s, h1, fun p hp => ?_⟩, fun ha => ⟨s, h1, h2 mcmc_tidy ha⟩⟩
  refine ((mcmc_user ops ?_ h1).live p hp).1
  exact ⟨fun p hp => (by cases hp), fun i g hg => (by simp at hg)⟩

/-- **C183, linear model settings.** The same, as far as safety goes, for any program with `apop_lm` settings. -/
theorem C183_lm (ops : List (Op LmArg Unit)) (h : Proper .any [] ops) : Runs lm ops := by
  obtain ⟨s, h1, _⟩ := exec_ok (good := fun _ _ => True) lm_sound ops h
  exact ⟨s, h1⟩

/-- **C183, constrained models.** Safe, if models are copied only before they are first evaluated. -/
theorem C183_dconstrain (ops : List (Op Unit Unit)) (h : Proper .unused [] ops) : Runs dcon ops := by
  obtain ⟨s, h1, _⟩ := exec_ok (good := fun _ _ => True) dcon_sound ops h
  exact ⟨s, h1⟩

/-- **C183, mixtures.** Safe, if mixtures are never copied. -/
theorem C183_mixture (ops : List (Op Unit Bool)) (h : Proper .never [] ops) : Runs mix ops := by
  obtain ⟨s, h1, _⟩ := exec_ok (good := fun _ _ => True) mix_sound ops h
  exact ⟨s, h1⟩

/-- **C183, ARMS settings.** Safe and without loss, if never copied. -/
theorem C183_arms (ops : List (Op Unit Unit)) (h : Proper .never [] ops) :
    Runs arms ops ∧ (AllFreed ops → Clean arms ops) := by
  obtain ⟨s, h1, h2⟩ := exec_ok (good := fun _ _ => True) arms_sound ops h
  exact ⟨⟨s, h1⟩, fun ha => ⟨s, h1, h2 arms_tidy ha⟩⟩

/-- **C183, loess settings.** Safe and without loss, if never copied. -/
theorem C183_loess (ops : List (Op Bool Unit)) (h : Proper .never [] ops) :
    Runs loess ops ∧ (AllFreed ops → Clean loess ops) := by
  obtain ⟨s, h1, h2⟩ := exec_ok (good := fun _ _ => True) loess_sound ops h
  exact ⟨⟨s, h1⟩, fun ha => ⟨s, h1, h2 loess_tidy ha⟩⟩

end Apop.Settings.Owner
