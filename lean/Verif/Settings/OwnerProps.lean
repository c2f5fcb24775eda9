import Verif.Settings.Owner
import Mathlib.Tactic.SplitIfs
import Mathlib.Data.List.Nodup
import Mathlib.Data.List.Basic

/-! # Proofs about the ownership of settings groups -- C183 -/

namespace Apop.Settings.Owner
variable {A U G : Type}

/-! ## Heap facts -/

/-- What the code does to the heap, for a group that owned `O` and (with its copy) then owns `O'`. -/
structure Chg (h : Heap) (O : List Nat) (h' : Heap) (O' : List Nat) : Prop where
  fr : (∀ p, h.live p = true → p < h.next) → ∀ p, h'.live p = true → p < h'.next
  mono : h.next ≤ h'.next
  nd : (∀ p ∈ O, p < h.next) → O.Nodup → O'.Nodup
  live : (∀ p ∈ O, h.live p = true) → ∀ p ∈ O', h'.live p = true
  src : ∀ p ∈ O', p ∈ O ∨ h.next ≤ p
  keep : ∀ p, p ∉ O → h.live p = true → h'.live p = true

/-- Nothing is lost, except what the user has allocated himself. -/
structure Tidy (h : Heap) (O : List Nat) (h' : Heap) (O' : List Nat) : Prop where
  left : ∀ p, h'.live p = true → (h.live p = true ∧ p ∉ O) ∨ p ∈ O' ∨ h'.user p = true
  user : ∀ p, h.user p = true → h'.user p = true

/-- The heap and who owns what: a map from group numbers to blocks. -/
structure OwnInv (h : Heap) (f : Nat → List Nat) : Prop where
  fr : ∀ p, h.live p = true → p < h.next
  nd : ∀ i, (f i).Nodup
  live : ∀ i, ∀ p ∈ f i, h.live p = true
  disj : ∀ i j, i ≠ j → ∀ p ∈ f i, p ∉ f j

def NoLoss (h : Heap) (f : Nat → List Nat) : Prop := ∀ p, h.live p = true → h.user p = true ∨ ∃ i, p ∈ f i

def upd (f : Nat → List Nat) (i : Nat) (a : List Nat) : Nat → List Nat := fun j => if j = i then a else f j

theorem OwnInv.step {h h' : Heap} {f : Nat → List Nat} (inv : OwnInv h f) {i n : Nat} (hin : i ≠ n)
    (hn : f n = []) {a b : List Nat} (c : Chg h (f i) h' (a ++ b)) :
    OwnInv h' (upd (upd f i a) n b) := by
  have hnd := List.nodup_append'.1 (c.nd (fun p hp => inv.fr p (inv.live i p hp)) (inv.nd i))
  have hl := c.live (inv.live i)
  -- blocks of other groups are old and not among the new ones
  have hother : ∀ j, j ≠ i → j ≠ n → ∀ p ∈ f j, h'.live p = true ∧ p ∉ a ∧ p ∉ b := by
    intro j hj hjn p hp
    have hp1 : p ∉ f i := fun hp' => inv.disj j i hj p hp hp'
    have hlt := inv.fr p (inv.live j p hp)
    refine ⟨c.keep p hp1 (inv.live j p hp), ?_, ?_⟩
    · intro hpa
      rcases c.src p (List.mem_append.2 (.inl hpa)) with h1 | h1
      · exact hp1 h1
      · omega
    · intro hpb
      rcases c.src p (List.mem_append.2 (.inr hpb)) with h1 | h1
      · exact hp1 h1
      · omega
  refine ⟨c.fr inv.fr, ?_, ?_, ?_⟩
  · intro j; unfold upd
    split_ifs
    · exact hnd.2.1
    · exact hnd.1
    · exact inv.nd j
  · intro j p hp
    unfold upd at hp
    split_ifs at hp with h1 h2
    · exact hl p (List.mem_append.2 (.inr hp))
    · exact hl p (List.mem_append.2 (.inl hp))
    · exact (hother j h2 h1 p hp).1
  · intro j k hjk p hp hp'
    unfold upd at hp hp'
    split_ifs at hp hp' with h1 h2 h3 h4 h5 h6 h7 h8
    · omega
    · exact hnd.2.2 hp' hp
    · exact (hother k h3 h2 p hp').2.2 hp
    · exact hnd.2.2 hp hp'
    · omega
    · exact (hother k h6 h5 p hp').2.1 hp
    · exact (hother j h4 h1 p hp).2.2 hp'
    · exact (hother j h4 h1 p hp).2.1 hp'
    · exact inv.disj j k hjk p hp hp'

theorem NoLoss.step {h h' : Heap} {f : Nat → List Nat} (inv : NoLoss h f) {i n : Nat} (hin : i ≠ n)
    (hn : f n = []) {a b : List Nat} (c : Tidy h (f i) h' (a ++ b)) :
    NoLoss h' (upd (upd f i a) n b) := by
  intro p hp
  rcases c.left p hp with ⟨h1, h2⟩ | h1 | h1
  · rcases inv p h1 with h3 | ⟨j, hj⟩
    · exact .inl (c.user p h3)
    · refine .inr ⟨j, ?_⟩
      unfold upd
      split_ifs with h4 h5
      · subst h4; rw [hn] at hj; cases hj
      · subst h5; exact absurd hj h2
      · exact hj
  · rcases List.mem_append.1 h1 with h2 | h2
    · exact .inr ⟨i, by unfold upd; rw [if_neg hin, if_pos rfl]; exact h2⟩
    · exact .inr ⟨n, by unfold upd; rw [if_pos rfl]; exact h2⟩
  · exact .inl h1

/-! ## Sound groups -/

/-- What is asked of a group's code: `own` says what a group owns, `fresh` holds of groups not yet used. -/
structure Sound (c : Code A U G) (own : G → List Nat) (fresh : G → Prop) (pol : Policy) : Prop where
  init : ∀ h a, Chg h [] (c.init h a).1 (own (c.init h a).2) ∧ fresh (c.init h a).2
  copy : ∀ h g, (pol = .any ∨ (pol = .unused ∧ fresh g)) → (∀ p ∈ own g, h.live p = true) →
    ∃ h' g1 g2, c.copy h g = .ok (h', g1, g2) ∧ Chg h (own g) h' (own g1 ++ own g2) ∧
      (fresh g → fresh g1 ∧ fresh g2)
  use : ∀ h g u, (∀ p ∈ own g, h.live p = true) → ∃ h' g', c.use h g u = .ok (h', g') ∧ Chg h (own g) h' (own g')
  free : ∀ h g, (own g).Nodup → (∀ p ∈ own g, h.live p = true) → ∃ h', c.free h g = .ok h' ∧ Chg h (own g) h' []

/-- No memory is lost by a group's code; `good` tells what of a group's blocks are the user's. -/
structure SoundTidy (c : Code A U G) (own : G → List Nat) (good : G → Heap → Prop) (pol : Policy) (fresh : G → Prop) : Prop where
  mono : ∀ g h h', (∀ p, h.user p = true → h'.user p = true) → good g h → good g h'
  init : ∀ h a, Tidy h [] (c.init h a).1 (own (c.init h a).2) ∧ good (c.init h a).2 (c.init h a).1
  copy : ∀ h g h' g1 g2, (pol = .any ∨ (pol = .unused ∧ fresh g)) → good g h → c.copy h g = .ok (h', g1, g2) →
    Tidy h (own g) h' (own g1 ++ own g2) ∧ good g1 h' ∧ good g2 h'
  use : ∀ h g u h' g', good g h → c.use h g u = .ok (h', g') → Tidy h (own g) h' (own g') ∧ good g' h'
  free : ∀ h g h', good g h → c.free h g = .ok h' → Tidy h (own g) h' []

def ownAt (own : G → List Nat) (l : List (Option G)) (i : Nat) : List Nat :=
  match l[i]? with
  | some (some g) => own g
  | _ => []

/-- Nothing has been lost so far. -/
structure TidyInv (own : G → List Nat) (good : G → Heap → Prop) (s : Sess G) : Prop where
  nl : NoLoss s.heap (ownAt own s.groups)
  good : ∀ (i : Nat) (g : G), s.groups[i]? = some (some g) → good g s.heap

structure Inv (own : G → List Nat) (fresh : G → Prop) (s : Sess G) (ks : List Mark) : Prop where
  len : s.groups.length = ks.length
  alive : ∀ (i : Nat) (k : Mark), ks[i]? = some k → k ≠ .dead → ∃ g, s.groups[i]? = some (some g) ∧ (k = .unused → fresh g)
  dead : ∀ (i : Nat), ks[i]? = some .dead → s.groups[i]? = some none
  own : OwnInv s.heap (ownAt own s.groups)

theorem ownAt_append (own : G → List Nat) (l : List (Option G)) (x : Option G) :
    ownAt own (l ++ [x]) = upd (ownAt own l) l.length (ownAt own [x] 0) := by
  funext j
  unfold upd ownAt
  by_cases h : j = l.length
  · subst h; simp
  · rw [if_neg h]
    by_cases h2 : j < l.length
    · rw [List.getElem?_append_left h2]
    · rw [List.getElem?_eq_none (by simp; omega), List.getElem?_eq_none (by omega)]

theorem ownAt_set (own : G → List Nat) (l : List (Option G)) (i : Nat) (hi : i < l.length) (x : Option G) :
    ownAt own (l.set i x) = upd (ownAt own l) i (ownAt own [x] 0) := by
  funext j
  unfold upd ownAt
  by_cases h : j = i
  · subst h; simp [hi]
  · rw [if_neg h, List.getElem?_set_ne (by omega)]

theorem ownAt_len (own : G → List Nat) (l : List (Option G)) (n : Nat) (h : l.length ≤ n) : ownAt own l n = [] := by
  unfold ownAt; rw [List.getElem?_eq_none h]

theorem upd_nil (f : Nat → List Nat) (n : Nat) (h : f n = []) : upd f n [] = f := by
  funext j; unfold upd; split_ifs with h1
  · subst h1; exact h.symm
  · rfl

theorem get_ok {s : Sess G} {i : Nat} {g : G} (h : s.groups[i]? = some (some g)) : s.get i = .ok g := by
  unfold Sess.get; rw [h]

theorem step_ok {c : Code A U G} {own : G → List Nat} {fresh : G → Prop} {good : G → Heap → Prop} {pol : Policy} (hs : Sound c own fresh pol)
    {s : Sess G} {ks : List Mark} (inv : Inv own fresh s ks) (o : Op A U) (ho : OkOp pol ks o) :
    ∃ s', step c s o = .ok s' ∧ Inv own fresh s' (marks ks o) ∧
      (SoundTidy c own good pol fresh → TidyInv own good s → TidyInv own good s') := by
  cases o with
  | init a =>
    obtain ⟨hc, hf⟩ := hs.init s.heap a
    have hn := ownAt_len own s.groups s.groups.length (Nat.le_refl _)
    have hn1 := ownAt_len own s.groups (s.groups.length + 1) (by omega)
    have e : ownAt own (s.groups ++ [some (c.init s.heap a).2]) =
        upd (upd (ownAt own s.groups) (s.groups.length + 1) []) s.groups.length (own (c.init s.heap a).2) := by
      rw [ownAt_append, upd_nil _ _ hn1]; rfl
    refine ⟨_, rfl, ⟨?_, ?_, ?_, ?_⟩, ?_⟩
    · simp [marks, inv.len]
    · intro i k hk hkd
      simp only [marks] at hk
      by_cases hi : i < ks.length
      · rw [List.getElem?_append_left hi] at hk
        obtain ⟨g, hg, hfg⟩ := inv.alive i k hk hkd
        exact ⟨g, by simp only; rw [List.getElem?_append_left (by rw [inv.len]; exact hi)]; exact hg, hfg⟩
      · by_cases hi2 : i = ks.length
        · subst hi2
          refine ⟨(c.init s.heap a).2, ?_, fun _ => hf⟩
          simp only; rw [← inv.len]; simp
        · rw [List.getElem?_eq_none (by simp; omega)] at hk; cases hk
    · intro i hk
      simp only [marks] at hk
      by_cases hi : i < ks.length
      · rw [List.getElem?_append_left hi] at hk
        simp only; rw [List.getElem?_append_left (by rw [inv.len]; exact hi)]; exact inv.dead i hk
      · by_cases hi2 : i = ks.length
        · subst hi2; simp at hk
        · rw [List.getElem?_eq_none (by simp; omega)] at hk; cases hk
    · simp only; rw [e]
      exact inv.own.step (by omega) hn (by rw [hn1]; exact hc)
    · intro ht hnl
      obtain ⟨t1, t2⟩ := ht.init s.heap a
      refine ⟨?_, ?_⟩
      · simp only; rw [e]
        exact hnl.nl.step (by omega) hn (by rw [hn1]; exact t1)
      · intro j g hj
        by_cases hjl : j < s.groups.length
        · simp only at hj; rw [List.getElem?_append_left hjl] at hj
          exact ht.mono _ _ _ t1.user (hnl.good j g hj)
        · by_cases hj2 : j = s.groups.length
          · subst hj2; simp only at hj; rw [List.getElem?_concat_length] at hj; cases hj; exact t2
          · simp only at hj; rw [List.getElem?_eq_none (by simp; omega)] at hj; cases hj
  | copy i =>
    obtain ⟨k, hk, hmay⟩ := ho
    have hkd : k ≠ .dead := by
      cases pol <;> simp only [mayCopy] at hmay
      · exact hmay
      · subst hmay; decide
    obtain ⟨g, hg, hfg⟩ := inv.alive i k hk hkd
    have hi : i < s.groups.length := by
      by_contra h; rw [List.getElem?_eq_none (by omega)] at hg; cases hg
    have hO : ownAt own s.groups i = own g := by unfold ownAt; rw [hg]
    have hpol : pol = .any ∨ (pol = .unused ∧ fresh g) := by
      cases pol <;> simp only [mayCopy] at hmay
      · exact .inl rfl
      · exact .inr ⟨rfl, hfg hmay⟩
    obtain ⟨h', g1, g2, hc, hch, hfr⟩ := hs.copy s.heap g hpol (by rw [← hO]; exact inv.own.live i)
    have hn := ownAt_len own s.groups s.groups.length (Nat.le_refl _)
    have hset : (s.groups.set i (some g1)).length = s.groups.length := by simp
    have e : ownAt own (s.groups.set i (some g1) ++ [some g2]) =
        upd (upd (ownAt own s.groups) i (own g1)) s.groups.length (own g2) := by
      rw [ownAt_append, ownAt_set own _ _ hi, hset]; rfl
    have hstep : step c s (.copy i) = .ok ⟨h', s.groups.set i (some g1) ++ [some g2]⟩ := by
      simp only [step]; rw [get_ok hg]; simp only [Res.bind]; rw [hc]
    have hgd : ks.getD i .dead = k := by rw [List.getD_eq_getElem?_getD, hk]; rfl
    refine ⟨_, hstep, ⟨?_, ?_, ?_, ?_⟩, ?_⟩
    · simp [marks, inv.len]
    · intro j k' hk' hkd'
      simp only [marks, hgd] at hk'
      by_cases hj : j < ks.length
      · rw [List.getElem?_append_left hj] at hk'
        simp only; rw [List.getElem?_append_left (by rw [hset, inv.len]; exact hj)]
        by_cases hji : j = i
        · subst hji
          rw [hk] at hk'; cases hk'
          exact ⟨g1, by simp [hi], fun hu => (hfr (hfg hu)).1⟩
        · rw [List.getElem?_set_ne (by omega)]
          exact inv.alive j k' hk' hkd'
      · by_cases hj2 : j = ks.length
        · subst hj2
          rw [List.getElem?_concat_length] at hk'; cases hk'
          refine ⟨g2, ?_, fun hu => (hfr (hfg hu)).2⟩
          simp only; rw [← inv.len, ← hset]; simp
        · rw [List.getElem?_eq_none (by simp; omega)] at hk'; cases hk'
    · intro j hk'
      simp only [marks, hgd] at hk'
      by_cases hj : j < ks.length
      · rw [List.getElem?_append_left hj] at hk'
        simp only; rw [List.getElem?_append_left (by rw [hset, inv.len]; exact hj)]
        by_cases hji : j = i
        · subst hji
          rw [hk] at hk'; cases hk'; exact absurd rfl hkd
        · rw [List.getElem?_set_ne (by omega)]
          exact inv.dead j hk'
      · by_cases hj2 : j = ks.length
        · subst hj2
          rw [List.getElem?_concat_length] at hk'; cases hk'; exact absurd rfl hkd
        · rw [List.getElem?_eq_none (by simp; omega)] at hk'; cases hk'
    · simp only; rw [e]
      exact inv.own.step (by omega) hn (by rw [hO]; exact hch)
    · intro ht hnl
      obtain ⟨t1, t2, t3⟩ := ht.copy _ _ _ _ _ hpol (hnl.good i g hg) hc
      refine ⟨?_, ?_⟩
      · simp only; rw [e]
        exact hnl.nl.step (by omega) hn (by rw [hO]; exact t1)
      · intro j g' hj
        simp only at hj
        by_cases hjl : j < s.groups.length
        · rw [List.getElem?_append_left (by rw [hset]; exact hjl)] at hj
          by_cases hji : j = i
          · subst hji; rw [List.getElem?_set_self hi] at hj; cases hj; exact t2
          · rw [List.getElem?_set_ne (by omega)] at hj
            exact ht.mono _ _ _ t1.user (hnl.good j g' hj)
        · by_cases hj2 : j = s.groups.length
          · rw [hj2, ← hset, List.getElem?_concat_length] at hj; cases hj; exact t3
          · rw [List.getElem?_eq_none (by simp; omega)] at hj; cases hj
  | use i u =>
    obtain ⟨k, hk, hkd⟩ := ho
    obtain ⟨g, hg, hfg⟩ := inv.alive i k hk hkd
    have hi : i < s.groups.length := by
      by_contra h; rw [List.getElem?_eq_none (by omega)] at hg; cases hg
    have hik : i < ks.length := by rw [← inv.len]; exact hi
    have hO : ownAt own s.groups i = own g := by unfold ownAt; rw [hg]
    obtain ⟨h', g1, hc, hch⟩ := hs.use s.heap g u (by rw [← hO]; exact inv.own.live i)
    have hn := ownAt_len own s.groups s.groups.length (Nat.le_refl _)
    have e : ownAt own (s.groups.set i (some g1)) =
        upd (upd (ownAt own s.groups) i (own g1)) s.groups.length [] := by
      rw [upd_nil, ownAt_set own _ _ hi]; rfl
      unfold upd; rw [if_neg (by omega)]; exact hn
    have hstep : step c s (.use i u) = .ok ⟨h', s.groups.set i (some g1)⟩ := by
      simp only [step]; rw [get_ok hg]; simp only [Res.bind]; rw [hc]
    refine ⟨_, hstep, ⟨?_, ?_, ?_, ?_⟩, ?_⟩
    · simp [marks, inv.len]
    · intro j k' hk' hkd'
      simp only [marks] at hk'
      simp only
      by_cases hji : j = i
      · subst hji
        rw [List.getElem?_set_self hik] at hk'; cases hk'
        exact ⟨g1, by simp [hi], fun hu => by cases hu⟩
      · rw [List.getElem?_set_ne (by omega)] at hk' ⊢
        exact inv.alive j k' hk' hkd'
    · intro j hk'
      simp only [marks] at hk'
      simp only
      by_cases hji : j = i
      · subst hji
        rw [List.getElem?_set_self hik] at hk'; cases hk'
      · rw [List.getElem?_set_ne (by omega)] at hk' ⊢
        exact inv.dead j hk'
    · simp only; rw [e]
      exact inv.own.step (by omega) hn (by rw [hO, List.append_nil]; exact hch)
    · intro ht hnl
      obtain ⟨t1, t2⟩ := ht.use _ _ _ _ _ (hnl.good i g hg) hc
      refine ⟨?_, ?_⟩
      · simp only; rw [e]
        exact hnl.nl.step (by omega) hn (by rw [hO, List.append_nil]; exact t1)
      · intro j g' hj
        simp only at hj
        by_cases hji : j = i
        · subst hji; rw [List.getElem?_set_self hi] at hj; cases hj; exact t2
        · rw [List.getElem?_set_ne (by omega)] at hj
          exact ht.mono _ _ _ t1.user (hnl.good j g' hj)
  | free i =>
    obtain ⟨k, hk, hkd⟩ := ho
    obtain ⟨g, hg, hfg⟩ := inv.alive i k hk hkd
    have hi : i < s.groups.length := by
      by_contra h; rw [List.getElem?_eq_none (by omega)] at hg; cases hg
    have hik : i < ks.length := by rw [← inv.len]; exact hi
    have hO : ownAt own s.groups i = own g := by unfold ownAt; rw [hg]
    obtain ⟨h', hc, hch⟩ := hs.free s.heap g (by rw [← hO]; exact inv.own.nd i) (by rw [← hO]; exact inv.own.live i)
    have hn := ownAt_len own s.groups s.groups.length (Nat.le_refl _)
    have e : ownAt own (s.groups.set i none) =
        upd (upd (ownAt own s.groups) i []) s.groups.length [] := by
      rw [upd_nil, ownAt_set own _ _ hi]; rfl
      unfold upd; rw [if_neg (by omega)]; exact hn
    have hstep : step c s (.free i) = .ok ⟨h', s.groups.set i none⟩ := by
      simp only [step]; rw [get_ok hg]; simp only [Res.bind]; rw [hc]
    refine ⟨_, hstep, ⟨?_, ?_, ?_, ?_⟩, ?_⟩
    · simp [marks, inv.len]
    · intro j k' hk' hkd'
      simp only [marks] at hk'
      simp only
      by_cases hji : j = i
      · subst hji
        rw [List.getElem?_set_self hik] at hk'; cases hk'; exact absurd rfl hkd'
      · rw [List.getElem?_set_ne (by omega)] at hk' ⊢
        exact inv.alive j k' hk' hkd'
    · intro j hk'
      simp only [marks] at hk'
      simp only
      by_cases hji : j = i
      · subst hji; simp [hi]
      · rw [List.getElem?_set_ne (by omega)] at hk' ⊢
        exact inv.dead j hk'
    · simp only; rw [e]
      exact inv.own.step (by omega) hn (by rw [hO, List.append_nil]; exact hch)
    · intro ht hnl
      have t1 := ht.free _ _ _ (hnl.good i g hg) hc
      refine ⟨?_, ?_⟩
      · simp only; rw [e]
        exact hnl.nl.step (by omega) hn (by rw [hO, List.append_nil]; exact t1)
      · intro j g' hj
        simp only at hj
        by_cases hji : j = i
        · subst hji; rw [List.getElem?_set_self hi] at hj; cases hj
        · rw [List.getElem?_set_ne (by omega)] at hj
          exact ht.mono _ _ _ t1.user (hnl.good j g' hj)

theorem run_ok {c : Code A U G} {own : G → List Nat} {fresh : G → Prop} {good : G → Heap → Prop} {pol : Policy} (hs : Sound c own fresh pol)
    (ops : List (Op A U)) : ∀ {s : Sess G} {ks : List Mark}, Inv own fresh s ks → Proper pol ks ops →
    ∃ s', run c s ops = .ok s' ∧ Inv own fresh s' (finalMarks ks ops) ∧
      (SoundTidy c own good pol fresh → TidyInv own good s → TidyInv own good s') := by
  induction ops with
  | nil => intro s ks inv _; exact ⟨s, rfl, inv, fun _ h => h⟩
  | cons o os ih =>
    intro s ks inv hp
    obtain ⟨s1, h1, inv1, t1⟩ := step_ok hs inv o hp.1
    obtain ⟨s2, h2, inv2, t2⟩ := ih inv1 hp.2
    refine ⟨s2, ?_, inv2, fun ht hn => t2 ht (t1 ht hn)⟩
    unfold run; rw [h1]; exact h2

theorem inv_start (own : G → List Nat) (fresh : G → Prop) : Inv own fresh ⟨Heap.empty, []⟩ [] := by
  refine ⟨rfl, ?_, ?_, ?_, ?_, ?_, ?_⟩
  · intro i k h; simp at h
  · intro i h; simp at h
  · intro p h; simp [Heap.empty] at h
  · intro i; simp [ownAt]
  · intro i p hp; simp [ownAt] at hp
  · intro i j _ p hp; simp [ownAt] at hp

/-- Every proper program runs, and if all groups have been freed at its end, only what the user allocated is left. -/
theorem exec_ok {c : Code A U G} {own : G → List Nat} {fresh : G → Prop} {good : G → Heap → Prop} {pol : Policy} (hs : Sound c own fresh pol)
    (ops : List (Op A U)) (hp : Proper pol [] ops) : ∃ s, exec c ops = .ok s ∧
      (SoundTidy c own good pol fresh → (∀ k ∈ finalMarks [] ops, k = .dead) → ∀ p, s.heap.live p = true → s.heap.user p = true) := by
  obtain ⟨s, h, inv, t⟩ := run_ok hs ops (inv_start own fresh) hp
  refine ⟨s, h, fun ht hd p hp => ?_⟩
  have hnl := (t ht ⟨by intro p h; simp [Heap.empty] at h, by intro i g h; simp at h⟩).nl
  rcases hnl p hp with h1 | ⟨i, hi⟩
  · exact h1
  · exfalso
    unfold ownAt at hi
    have hgi : ∀ x, s.groups[i]? = some x → x = none := by
      intro x hx
      have hil : i < (finalMarks [] ops).length := by
        rw [← inv.len]; by_contra h2; rw [List.getElem?_eq_none (by omega)] at hx; cases hx
      have := inv.dead i (by rw [List.getElem?_eq_getElem hil, hd _ (List.getElem_mem hil)])
      rw [this] at hx; cases hx; rfl
    split at hi
    · rename_i g hg; cases hgi _ hg
    · cases hi

end Apop.Settings.Owner
