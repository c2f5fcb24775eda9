import Verif.Mod.Cdf

/-! # C111 (the default cdf) and C112 (shared draws) -/

namespace Apop.Mod.Cdf
variable {α : Type} [LinearOrder α]

/-- The comparison of numbers. -/
def gt (a b : α) : Bool := decide (b < a)

theorem lte_eq : ∀ (d ref : List α), d.length ≤ ref.length → lte gt d ref = .ok (decide (Below d ref))
  | [], ref, _ => by simp [lte, Below]
  | x :: xs, [], h => by simp at h
  | x :: xs, r :: rs, h => by
    have ih := lte_eq xs rs (by simpa using h)
    by_cases c : r < x
    · have : ¬ Below (x :: xs) (r :: rs) := fun hb => by
        have := hb 0 (by simp) (by simp)
        simp at this
        exact absurd c (not_lt.mpr this)
      simp [lte, gt, c, this]
    · simp only [lte, gt, c, decide_false, Bool.false_eq_true, if_false]
      rw [ih]
      congr 1
      simp only [decide_eq_decide]
      constructor
      · intro hb i h1 h2
        cases i with
        | zero => simpa using not_lt.mp c
        | succ i => simpa using hb i (by simpa using h1) (by simpa using h2)
      · intro hb i h1 h2
        have := hb (i + 1) (by simpa using h1) (by simpa using h2)
        simpa using this

theorem tally_eq (ref : List α) : ∀ (ds : List (List α)), (∀ r ∈ ds, r.length ≤ ref.length) →
    tally gt ref ds = .ok (ds.filter (fun d => decide (Below d ref))).length
  | [], _ => rfl
  | d :: ds, h => by
    have ih := tally_eq ref ds (fun r hr => h r (List.mem_cons_of_mem _ hr))
    simp only [tally, lte_eq d ref (h d (List.mem_cons_self ..)), ih, Res.bind]
    by_cases c : Below d ref <;> simp [c, Nat.add_comm]

/-- Live groups using counter `c`. -/
def users (w : World α) (c : Nat) : Nat := w.groups.countP (fun g => g.any (fun x => x.ctr == c))

/-- The memory `w` stands for the groups `s`. -/
structure Rep (w : World α) (s : List (Option (View α))) : Prop where
  len : w.groups.length = s.length
  dead : ∀ i : Nat, w.groups[i]? = some none ↔ s[i]? = some none
  draws : ∀ (i : Nat) x v, w.groups[i]? = some (some x) → s[i]? = some (some v) → x.draws = v.draws
  undrawn : ∀ (i : Nat) x v, w.groups[i]? = some (some x) → s[i]? = some (some v) → x.made = none → v.rows = none
  drawn : ∀ (i : Nat) x v k, w.groups[i]? = some (some x) → s[i]? = some (some v) → x.made = some k →
    ∃ d, v.rows = some d ∧ d ≠ [] ∧ w.mats[k]? = some (some d)
  ctr : ∀ (i : Nat) x, w.groups[i]? = some (some x) → ∃ c, w.ctrs[x.ctr]? = some c
  count : ∀ (i : Nat) c, w.ctrs[i]? = some c → (users w i : Int) ≤ c
  same : ∀ (i j : Nat) x y k, w.groups[i]? = some (some x) → w.groups[j]? = some (some y) → x.made = some k → y.made = some k → x.ctr = y.ctr

theorem Rep.live {w : World α} {s : List (Option (View α))} (h : Rep w s) {i : Nat} {v : View α} (hv : s[i]? = some (some v)) :
    ∃ x, w.groups[i]? = some (some x) := by
  have hi : i < s.length := by
    by_contra hc
    rw [List.getElem?_eq_none (by omega)] at hv
    cases hv
  have hi' : i < w.groups.length := by rw [h.len]; exact hi
  rcases hg : w.groups[i] with _ | x
  · have : w.groups[i]? = some none := by rw [List.getElem?_eq_getElem hi', hg]
    rw [h.dead] at this
    rw [hv] at this
    cases this
  · exact ⟨x, by rw [List.getElem?_eq_getElem hi', hg]⟩

theorem Rep.view {w : World α} {s : List (Option (View α))} (h : Rep w s) {i : Nat} {x : Group} (hx : w.groups[i]? = some (some x)) :
    ∃ v, s[i]? = some (some v) := by
  have hi : i < w.groups.length := by
    by_contra hc
    rw [List.getElem?_eq_none (by omega)] at hx
    cases hx
  have hi' : i < s.length := by rw [← h.len]; exact hi
  rcases hg : s[i] with _ | v
  · have : s[i]? = some Option.none := by rw [List.getElem?_eq_getElem hi', hg]
    rw [← h.dead] at this
    rw [hx] at this
    cases this
  · exact ⟨v, by rw [List.getElem?_eq_getElem hi', hg]⟩

theorem users_append (w : World α) (g : Option Group) (c : Nat) :
    users { w with groups := w.groups ++ [g] } c = users w c + (if g.any (fun x => x.ctr == c) then 1 else 0) := by
  simp [users, List.countP_append, List.countP_cons]

theorem group_eq {w : World α} {g : Nat} {x : Group} (h : w.groups[g]? = some (some x)) : w.group g = .ok x := by
  unfold World.group; rw [h]

theorem mat_eq {w : World α} {k : Nat} {d : List (List α)} (h : w.mats[k]? = some (some d)) : w.mat k = .ok d := by
  unfold World.mat; rw [h]

theorem getElem?_snoc {β : Type} (l : List β) (a : β) (i : Nat) :
    (l ++ [a])[i]? = if i = l.length then some a else l[i]? := by
  rcases Nat.lt_trichotomy i l.length with h | h | h
  · rw [List.getElem?_append_left h, if_neg (by omega)]
  · subst h; simp
  · rw [List.getElem?_eq_none (by simp; omega), if_neg (by omega), List.getElem?_eq_none (by omega)]

theorem lt_of_getElem? {β : Type} {l : List β} {i : Nat} {a : β} (h : l[i]? = some a) : i < l.length := by
  by_contra hc
  rw [List.getElem?_eq_none (by omega)] at h
  cases h

theorem users_fresh {w : World α} {s : List (Option (View α))} (h : Rep w s) : users w w.ctrs.length = 0 := by
  unfold users
  rw [List.countP_eq_zero]
  intro g hg
  cases g with
  | none => simp
  | some x =>
    obtain ⟨i, hi⟩ := List.getElem?_of_mem hg
    obtain ⟨c, hc⟩ := h.ctr i x hi
    have := lt_of_getElem? hc
    simp; omega

theorem add_rep {w : World α} {s : List (Option (View α))} (h : Rep w s) (n : Nat) : Rep (w.add n) (s ++ [some ⟨n, none⟩]) := by
  have hl := h.len
  refine ⟨by simp [World.add, hl], ?_, ?_, ?_, ?_, ?_, ?_, ?_⟩
  · intro i
    simp only [World.add, getElem?_snoc, hl]
    by_cases e : i = s.length <;> simp [e]
    simpa using h.dead i
  · intro i x v
    simp only [World.add, getElem?_snoc, hl]
    by_cases e : i = s.length
    · simp only [e, if_true]; intro a b; cases a; cases b; rfl
    · simp only [e, if_false]; exact h.draws i x v
  · intro i x v
    simp only [World.add, getElem?_snoc, hl]
    by_cases e : i = s.length
    · simp only [e, if_true]; intro a b; cases b; intro _; rfl
    · simp only [e, if_false]; exact h.undrawn i x v
  · intro i x v k
    simp only [World.add, getElem?_snoc, hl]
    by_cases e : i = s.length
    · simp only [e, if_true]; intro a b; cases a; intro c; cases c
    · simp only [e, if_false]; exact h.drawn i x v k
  · intro i x
    simp only [World.add, getElem?_snoc, hl]
    by_cases e : i = s.length
    · simp only [e, if_true]; intro a; cases a; exact ⟨1, by simp⟩
    · simp only [e, if_false]; intro a
      obtain ⟨c, hc⟩ := h.ctr i x a
      refine ⟨c, ?_⟩
      rw [if_neg (by have := lt_of_getElem? hc; omega)]
      exact hc
  · intro i c hc
    have hu := users_append w (some ⟨n, none, w.ctrs.length⟩) i
    have hu' : users (w.add n) i = users w i + (if w.ctrs.length = i then 1 else 0) := by
      have : users (w.add n) i = users { w with groups := w.groups ++ [some ⟨n, none, w.ctrs.length⟩] } i := rfl
      rw [this, hu]
      simp
    simp only [World.add, getElem?_snoc] at hc
    rw [hu']
    by_cases e : i = w.ctrs.length
    · subst e
      simp at hc
      rw [users_fresh h]; simp; omega
    · rw [if_neg e] at hc
      rw [if_neg (Ne.symm e)]
      simpa using h.count i c hc
  · intro i j x y k
    simp only [World.add, getElem?_snoc]
    by_cases e : i = w.groups.length
    · simp only [e, if_true]; intro a; cases a; intro _ c; cases c
    · by_cases e' : j = w.groups.length
      · simp only [e', if_true]; intro _ a; cases a; intro _ c; cases c
      · simp only [e, e', if_false]; exact h.same i j x y k

theorem copy_rep {w : World α} {s : List (Option (View α))} (h : Rep w s) {g : Nat} {v : View α} (hv : s[g]? = some (some v)) :
    ∃ w', w.copy g = .ok w' ∧ Rep w' (s ++ [some v]) := by
  obtain ⟨x, hx⟩ := h.live hv
  obtain ⟨c, hc⟩ := h.ctr g x hx
  have hcl := lt_of_getElem? hc
  have hl := h.len
  refine ⟨{ w with ctrs := w.ctrs.set x.ctr (c + 1), groups := w.groups ++ [some x] }, ?_, ?_⟩
  · unfold World.copy
    rw [group_eq hx]
    simp only [Res.bind, rd_eq_ok.2 hc]
  -- a group of the new memory is a group of the old one
  have old : ∀ (i : Nat) y, (w.groups ++ [some x])[i]? = some (some y) → ∃ j : Nat, w.groups[j]? = some (some y) ∧
      (s ++ [some v])[i]? = s[j]? := by
    intro i y hy
    rw [getElem?_snoc] at hy
    by_cases e : i = w.groups.length
    · rw [if_pos e] at hy; cases hy
      exact ⟨g, hx, by rw [getElem?_snoc, if_pos (by omega), hv]⟩
    · rw [if_neg e] at hy
      exact ⟨i, hy, by rw [getElem?_snoc, if_neg (by omega)]⟩
  refine ⟨by simp [hl], ?_, ?_, ?_, ?_, ?_, ?_, ?_⟩
  · intro i
    simp only [getElem?_snoc, hl]
    by_cases e : i = s.length <;> simp [e]
    simpa using h.dead i
  · intro i y u hy hu
    obtain ⟨j, a, b⟩ := old i y hy
    exact h.draws j y u a (by rw [← b]; exact hu)
  · intro i y u hy hu
    obtain ⟨j, a, b⟩ := old i y hy
    exact h.undrawn j y u a (by rw [← b]; exact hu)
  · intro i y u k hy hu
    obtain ⟨j, a, b⟩ := old i y hy
    exact h.drawn j y u k a (by rw [← b]; exact hu)
  · intro i y hy
    obtain ⟨j, a, b⟩ := old i y hy
    obtain ⟨c', hc'⟩ := h.ctr j y a
    by_cases e : x.ctr = y.ctr
    · exact ⟨c + 1, by simp only []; rw [← e, List.getElem?_set_self hcl]⟩
    · exact ⟨c', by simp only []; rw [List.getElem?_set_ne e]; exact hc'⟩
  · intro i c' hc'
    have hu := users_append w (some x) i
    have hu' : users { w with ctrs := w.ctrs.set x.ctr (c + 1), groups := w.groups ++ [some x] } i =
        users w i + (if x.ctr = i then 1 else 0) := by
      have : users { w with ctrs := w.ctrs.set x.ctr (c + 1), groups := w.groups ++ [some x] } i =
        users { w with groups := w.groups ++ [some x] } i := rfl
      rw [this, hu]; simp
    rw [hu']
    by_cases e : x.ctr = i
    · subst e
      simp only [List.getElem?_set_self hcl] at hc'
      cases hc'
      have := h.count x.ctr c hc
      simp; omega
    · simp only [List.getElem?_set_ne e] at hc'
      rw [if_neg e]
      simpa using h.count i c' hc'
  · intro i j y z k hy hz
    obtain ⟨i', a, _⟩ := old i y hy
    obtain ⟨j', b, _⟩ := old j z hz
    exact h.same i' j' y z k a b

theorem users_free {w : World α} {g : Nat} {x : Group} (hx : w.groups[g]? = some (some x)) (c : Nat) :
    users { w with groups := w.groups.set g none } c = users w c - (if x.ctr = c then 1 else 0) := by
  have hg := lt_of_getElem? hx
  have he : w.groups[g] = some x := by
    rw [List.getElem?_eq_getElem hg] at hx; simpa using hx
  unfold users
  rw [List.countP_set hg, he]
  simp

theorem users_pos {w : World α} {g : Nat} {x : Group} (hx : w.groups[g]? = some (some x)) : 0 < users w x.ctr := by
  unfold users
  rw [List.countP_pos_iff]
  exact ⟨some x, List.mem_of_getElem? hx, by simp⟩

/-- Counting two groups at different places. -/
theorem users_two {w : World α} {i j : Nat} {x y : Group} (hx : w.groups[i]? = some (some x)) (hy : w.groups[j]? = some (some y))
    (hij : i ≠ j) (hc : x.ctr = y.ctr) : 2 ≤ users w x.ctr := by
  have h1 := users_free hx x.ctr
  rw [if_pos rfl] at h1
  have hy' : ({ w with groups := w.groups.set i none } : World α).groups[j]? = some (some y) := by
    simp only []; rw [List.getElem?_set_ne hij]; exact hy
  have := users_pos hy'
  rw [← hc, h1] at this
  omega

theorem free_rep {w : World α} {s : List (Option (View α))} (h : Rep w s) {g : Nat} {v : View α} (hv : s[g]? = some (some v)) :
    ∃ w', w.free g = .ok w' ∧ Rep w' (s.set g none) := by
  obtain ⟨x, hx⟩ := h.live hv
  obtain ⟨c, hc⟩ := h.ctr g x hx
  have hcl := lt_of_getElem? hc
  have hgl := lt_of_getElem? hx
  have hgs := lt_of_getElem? hv
  have hl := h.len
  have hcount := h.count x.ctr c hc
  -- whatever happens to the counter and to a matrix no other group uses
  have key : ∀ (ctrs : List Int) (mats : List (Option (List (List α)))),
      (∀ i, i ≠ x.ctr → ctrs[i]? = w.ctrs[i]?) →
      (∃ c', ctrs[x.ctr]? = some c' ∧ c - 1 ≤ c') →
      (∀ (i : Nat) y k, i ≠ g → w.groups[i]? = some (some y) → y.made = some k → mats[k]? = w.mats[k]?) →
      Rep ⟨mats, ctrs, w.groups.set g none⟩ (s.set g none) := by
    intro ctrs mats hcs ⟨c', hc', hle⟩ hms
    have sub : ∀ (i : Nat) y, (w.groups.set g none)[i]? = some (some y) → i ≠ g ∧ w.groups[i]? = some (some y) ∧
        (s.set g none)[i]? = s[i]? := by
      intro i y hy
      by_cases e : g = i
      · subst e; rw [List.getElem?_set_self hgl] at hy; cases hy
      · rw [List.getElem?_set_ne e] at hy
        exact ⟨Ne.symm e, hy, by rw [List.getElem?_set_ne e]⟩
    refine ⟨by simp [hl], ?_, ?_, ?_, ?_, ?_, ?_, ?_⟩
    · intro i
      by_cases e : g = i
      · subst e; simp only [List.getElem?_set_self hgl, List.getElem?_set_self hgs]
      · simp only [List.getElem?_set_ne e]; exact h.dead i
    · intro i y u hy hu
      obtain ⟨_, a, b⟩ := sub i y hy
      exact h.draws i y u a (by rw [← b]; exact hu)
    · intro i y u hy hu
      obtain ⟨_, a, b⟩ := sub i y hy
      exact h.undrawn i y u a (by rw [← b]; exact hu)
    · intro i y u k hy hu hk
      obtain ⟨n, a, b⟩ := sub i y hy
      obtain ⟨d, d1, d2, d3⟩ := h.drawn i y u k a (by rw [← b]; exact hu) hk
      exact ⟨d, d1, d2, by simp only []; rw [hms i y k n a hk]; exact d3⟩
    · intro i y hy
      obtain ⟨_, a, _⟩ := sub i y hy
      by_cases e : y.ctr = x.ctr
      · exact ⟨c', by simp only []; rw [e]; exact hc'⟩
      · obtain ⟨z, hz⟩ := h.ctr i y a
        exact ⟨z, by simp only []; rw [hcs _ e]; exact hz⟩
    · intro i z hz
      have hu := users_free hx i
      have hu' : users (⟨mats, ctrs, w.groups.set g none⟩ : World α) i = users { w with groups := w.groups.set g none } i := rfl
      rw [hu', hu]
      by_cases e : x.ctr = i
      · subst e
        simp only [] at hz
        rw [hc'] at hz
        cases hz
        have := users_pos hx
        simp only [if_true]
        omega
      · simp only [] at hz
        rw [hcs i (Ne.symm e)] at hz
        rw [if_neg e]
        simpa using h.count i z hz
    · intro i j y z k hy hz
      obtain ⟨_, a, _⟩ := sub i y hy
      obtain ⟨_, b, _⟩ := sub j z hz
      exact h.same i j y z k a b
  unfold World.free
  rw [group_eq hx]
  simp only [Res.bind]
  unfold World.release
  cases hm : x.made with
  | none =>
    simp only [Res.bind]
    exact ⟨_, rfl, key w.ctrs w.mats (fun _ _ => rfl) ⟨c, hc, by omega⟩ (fun _ _ _ _ _ _ => rfl)⟩
  | some k =>
    simp only [rd_eq_ok.2 hc, Res.bind]
    by_cases z : c - 1 = 0
    · rw [if_pos z]
      obtain ⟨d, d1, d2, d3⟩ := h.drawn g x v k hx hv hm
      simp only [World.freeMat, World.mat, d3, Res.bind]
      refine ⟨_, rfl, key _ _ ?_ ⟨c - 1, List.getElem?_set_self hcl, by omega⟩ ?_⟩
      · intro i hi; rw [List.getElem?_set_ne (Ne.symm hi)]
      · intro i y k' hi hy hk'
        by_cases e : k = k'
        · exfalso
          subst e
          have := users_two hx hy (Ne.symm hi) (h.same g i x y k hx hy hm hk')
          omega
        · rw [List.getElem?_set_ne e]
    · rw [if_neg z]
      refine ⟨_, rfl, key _ _ ?_ ⟨c - 1, List.getElem?_set_self hcl, by omega⟩ (fun _ _ _ _ _ _ => rfl)⟩
      intro i hi; rw [List.getElem?_set_ne (Ne.symm hi)]

theorem eval_eq {w : World α} {k : Nat} {d : List (List α)} (hk : w.mats[k]? = some (some d)) (hd : d ≠ []) (ref : List α)
    (hr : ∀ r ∈ d, r.length ≤ ref.length) : w.eval gt ref k = .ok (some (fraction ref d)) := by
  unfold World.eval
  rw [mat_eq hk]
  simp only [Res.bind, tally_eq ref d hr, ratio]
  rw [if_neg (by simpa using hd)]
  rfl

theorem fill_rep {w : World α} {s : List (Option (View α))} (h : Rep w s) {g : Nat} {v : View α} {x : Group}
    (hv : s[g]? = some (some v)) (hx : w.groups[g]? = some (some x)) (rows : List (List α)) (hr : rows ≠ []) :
    Rep (w.fill g x rows) (s.set g (some ⟨v.draws, some rows⟩)) := by
  have hgl := lt_of_getElem? hx
  have hgs := lt_of_getElem? hv
  have hl := h.len
  have hxd := h.draws g x v hx hv
  have grp : ∀ (i : Nat) y, (w.fill g x rows).groups[i]? = some (some y) →
      (i = g ∧ y = { x with made := some w.mats.length }) ∨ (i ≠ g ∧ w.groups[i]? = some (some y)) := by
    intro i y hy
    unfold World.fill at hy
    by_cases e : g = i
    · subst e
      simp only [List.getElem?_set_self hgl] at hy
      cases hy; exact Or.inl ⟨rfl, rfl⟩
    · simp only [List.getElem?_set_ne e] at hy
      exact Or.inr ⟨Ne.symm e, hy⟩
  have mk : ∀ (i : Nat) y k, w.groups[i]? = some (some y) → y.made = some k → k < w.mats.length := by
    intro i y k hy hk
    obtain ⟨u, hu⟩ := h.view hy
    obtain ⟨d, _, _, d3⟩ := h.drawn i y u k hy hu hk
    exact lt_of_getElem? d3
  refine ⟨by simp [World.fill, hl], ?_, ?_, ?_, ?_, ?_, ?_, ?_⟩
  · intro i
    unfold World.fill
    by_cases e : g = i
    · subst e; simp [List.getElem?_set_self hgl, List.getElem?_set_self hgs]
    · simp only [List.getElem?_set_ne e]; exact h.dead i
  · intro i y u hy hu
    rcases grp i y hy with ⟨rfl, rfl⟩ | ⟨n, a⟩
    · rw [List.getElem?_set_self hgs] at hu; cases hu; exact hxd
    · rw [List.getElem?_set_ne (Ne.symm n)] at hu; exact h.draws i y u a hu
  · intro i y u hy hu
    rcases grp i y hy with ⟨rfl, rfl⟩ | ⟨n, a⟩
    · intro c; cases c
    · rw [List.getElem?_set_ne (Ne.symm n)] at hu; exact h.undrawn i y u a hu
  · intro i y u k hy hu hk
    rcases grp i y hy with ⟨rfl, rfl⟩ | ⟨n, a⟩
    · rw [List.getElem?_set_self hgs] at hu; cases hu; cases hk
      exact ⟨rows, rfl, hr, by simp [World.fill]⟩
    · rw [List.getElem?_set_ne (Ne.symm n)] at hu
      obtain ⟨d, d1, d2, d3⟩ := h.drawn i y u k a hu hk
      refine ⟨d, d1, d2, ?_⟩
      simp only [World.fill, getElem?_snoc]
      rw [if_neg (by have := lt_of_getElem? d3; omega)]
      exact d3
  · intro i y hy
    rcases grp i y hy with ⟨rfl, rfl⟩ | ⟨n, a⟩
    · exact h.ctr i x hx
    · exact h.ctr i y a
  · intro i c hc
    have : users (w.fill g x rows) i = users w i := by
      unfold users World.fill
      have he : w.groups[g] = some x := by
        rw [List.getElem?_eq_getElem hgl] at hx; simpa using hx
      simp only []
      rw [List.countP_set hgl, he]
      by_cases e : x.ctr = i
      · subst e
        have := users_pos hx
        unfold users at this
        simp; omega
      · simp [e]
    rw [this]
    exact h.count i c hc
  · intro i j y z k hy hz hk hk'
    rcases grp i y hy with ⟨rfl, rfl⟩ | ⟨n, a⟩ <;> rcases grp j z hz with ⟨rfl, rfl⟩ | ⟨n', b⟩
    · rfl
    · cases hk
      have := mk j z _ b hk'
      omega
    · cases hk'
      have := mk i y _ a hk
      omega
    · exact h.same i j y z k a b hk hk'

/-- One operation. -/
theorem step_rep {w : World α} {s s' : List (Option (View α))} {o : Op α} {vs : List (Option ℚ)} (h : Rep w s)
    (hm : Means s o s' vs) : ∃ w' r, w.step gt o = .ok (w', r) ∧ r.toList = vs ∧ Rep w' s' := by
  cases hm with
  | add n hn => exact ⟨_, _, rfl, rfl, add_rep h n⟩
  | copy g v hv =>
    obtain ⟨w', e, r⟩ := copy_rep h hv
    exact ⟨w', none, by simp [World.step, e, Res.bind], rfl, r⟩
  | free g v hv =>
    obtain ⟨w', e, r⟩ := free_rep h hv
    exact ⟨w', none, by simp [World.step, e, Res.bind], rfl, r⟩
  | again g n ref rows v d hv hd hr =>
    obtain ⟨x, hx⟩ := h.live hv
    cases hmade : x.made with
    | none =>
      have := h.undrawn g x v hx hv hmade
      rw [hd] at this; cases this
    | some k =>
      obtain ⟨d', d1, d2, d3⟩ := h.drawn g x v k hx hv hmade
      rw [hd] at d1; cases d1
      refine ⟨w, some (some (fraction ref d)), ?_, rfl, h⟩
      simp only [World.step, World.cdf, group_eq hx, Res.bind, hmade, eval_eq d3 d2 ref hr]
  | first g n ref rows v hv hd hn hl hp hw hr =>
    obtain ⟨x, hx⟩ := h.live hv
    cases hmade : x.made with
    | some k =>
      obtain ⟨d', d1, d2, d3⟩ := h.drawn g x v k hx hv hmade
      rw [hd] at d1; cases d1
    | none =>
      have hne : rows ≠ [] := by intro e; rw [e] at hl; simp at hl; omega
      refine ⟨w.fill g x rows, some (some (fraction ref rows)), ?_, rfl, fill_rep h hv hx rows hne⟩
      simp only [World.step, World.cdf, group_eq hx, Res.bind, hmade]
      rw [if_neg (by omega)]
      rw [eval_eq (d := rows) (by simp [World.fill]) hne ref (fun r hr' => by rw [hw r hr']; exact hr)]
  | nosize g ref rows v hv hd =>
    obtain ⟨x, hx⟩ := h.live hv
    cases hmade : x.made with
    | some k =>
      obtain ⟨d', d1, d2, d3⟩ := h.drawn g x v k hx hv hmade
      rw [hd] at d1; cases d1
    | none =>
      exact ⟨w, some none, by simp [World.step, World.cdf, group_eq hx, Res.bind, hmade], rfl, h⟩

theorem run_rep {s s' : List (Option (View α))} {os : List (Op α)} {vs : List (Option ℚ)} (hh : History s os s' vs) :
    ∀ {w : World α}, Rep w s → ∃ w', World.run gt w os = .ok (w', vs) ∧ Rep w' s' := by
  induction hh with
  | nil s => intro w h; exact ⟨w, rfl, h⟩
  | cons s s' s'' o os v vs hm _ ih =>
    intro w h
    obtain ⟨w1, r, e1, e2, h1⟩ := step_rep h hm
    obtain ⟨w2, e3, h2⟩ := ih h1
    refine ⟨w2, ?_, h2⟩
    simp only [World.run, e1, Res.bind, e3, e2]

theorem empty_rep : Rep (α := α) {} [] := by
  refine ⟨rfl, by simp, by simp, by simp, by simp, by simp, by simp, by simp⟩

/-- **C111**: in every history of additions, copies, frees and cdf calls, from the start of the program, in which freed groups
are not used again and points are as wide as the draws: nothing undefined happens, every cdf call returns the fraction of its
group's draws that are at or below the point in every coordinate, and the draws of a group are those made at the first
cdf call of the group (or of the group it was copied from after that), the same in all later calls, whatever is done with
other groups. -/
theorem C111_history (os : List (Op α)) (s : List (Option (View α))) (vs : List (Option ℚ)) (h : History [] os s vs) :
    ∃ w, World.run gt {} os = .ok (w, vs) := by
  obtain ⟨w, e, _⟩ := run_rep h empty_rep
  exact ⟨w, e⟩

/-- **C111, range**: a cdf value lies between 0 and 1. -/
theorem C111_range (ref : List α) (rows : List (List α)) : 0 ≤ fraction ref rows ∧ fraction ref rows ≤ 1 := by
  unfold fraction
  have hle : (rows.filter (fun d => decide (Below d ref))).length ≤ rows.length := List.length_filter_le _ _
  constructor
  · apply div_nonneg <;> exact Nat.cast_nonneg _
  · apply div_le_one_of_le₀
    · exact_mod_cast hle
    · exact Nat.cast_nonneg _

/-- **C111, order**: moving the point up in every coordinate (points of at least the draws' width) cannot lower the value. -/
theorem C111_monotone (ref ref' : List α) (rows : List (List α)) (hl : ref'.length = ref.length)
    (hle : ∀ (i : Nat) (h : i < ref.length) (h' : i < ref'.length), ref[i] ≤ ref'[i])  :
    fraction ref rows ≤ fraction ref' rows := by
  unfold fraction
  have : (rows.filter (fun d => decide (Below d ref))).length ≤ (rows.filter (fun d => decide (Below d ref'))).length := by
    rw [← List.countP_eq_length_filter, ← List.countP_eq_length_filter]
    apply List.countP_mono_left
    intro d _ h
    simp only [decide_eq_true_eq] at h ⊢
    intro i h1 h2
    exact le_trans (h i h1 (by omega)) (hle i (by omega) h2)
  apply div_le_div_of_nonneg_right
  · exact_mod_cast this
  · exact Nat.cast_nonneg _

/-- A history meeting the hypotheses: a group with three draws, two cdf calls, a copy, a call on the copy after the
original is gone (the draws offered then are not used). -/
theorem C111_example : ∃ w : World ℤ, World.run gt {} [.add 3, .cdf 0 1 [2] [[1], [2], [3]], .cdf 0 1 [1] [], .copy 0, .free 0,
    .cdf 1 1 [3] [[7]], .free 1] = .ok (w, [some (2 / 3), some (1 / 3), some 1]) ∧ w.mats = [none] := by
  refine ⟨⟨[none], [0], [none, none]⟩, ?_, rfl⟩
  simp [World.run, World.step, World.add, World.cdf, World.group, World.fill, World.eval, World.mat, tally, lte, gt,
    Res.bind, ratio, World.copy, World.free, World.release, World.freeMat, rd]

/-- ... and as a history of the specification. -/
example : History (α := ℤ) [] [.add 2, .cdf 0 1 [2] [[1], [3]], .copy 0, .free 0, .cdf 1 1 [3] [], .free 1] [none, none]
    [some (fraction [2] [[1], [3]]), some (fraction [3] [[1], [3]])] := by
  apply History.cons (v := []) (h := Means.add _ _ (by decide))
  apply History.cons (v := [_]) (h := Means.first _ 0 1 [2] [[1], [3]] ⟨2, none⟩ rfl rfl (by decide) rfl (by decide) (by decide) (by decide))
  apply History.cons (v := []) (h := Means.copy _ 0 ⟨2, some [[1], [3]]⟩ rfl)
  apply History.cons (v := []) (h := Means.free _ 0 ⟨2, some [[1], [3]]⟩ rfl)
  show History [none, some ⟨2, some [[1], [3]]⟩] _ _ _
  apply History.cons (v := [_]) (h := Means.again (α := ℤ) [none, some ⟨2, some [[1], [3]]⟩] 1 1 [3] [] ⟨2, some [[1], [3]]⟩ [[1], [3]] rfl rfl (by decide))
  apply History.cons (v := []) (h := Means.free _ 1 ⟨2, some [[1], [3]]⟩ rfl)
  exact History.nil _

/-! ## C112 -/

/-- Copies are only made of groups with draws. -/
def DrawnFirst (s : List (Option (View α))) : Op α → Prop
  | .copy g => ∀ v, s[g]? = some (some v) → v.rows.isSome
  | _ => True

/-- A history in which copies are only made of groups with draws. -/
inductive Tidy : List (Option (View α)) → List (Op α) → Prop
  | nil (s) : Tidy s []
  | cons (s s' o os v) (h : Means s o s' v) (d : DrawnFirst s o) (t : Tidy s' os) : Tidy s (o :: os)

/-- The counter is the number of groups using it; groups with the same counter have the same draws, a group without draws is
alone; every matrix in memory belongs to a group. -/
structure Exact (w : World α) : Prop where
  ctr : ∀ (i : Nat) x, w.groups[i]? = some (some x) → w.ctrs[x.ctr]? = some (users w x.ctr : Int)
  same : ∀ (i j : Nat) x y, w.groups[i]? = some (some x) → w.groups[j]? = some (some y) → x.ctr = y.ctr → x.made = y.made
  alone : ∀ (i j : Nat) x y, w.groups[i]? = some (some x) → w.groups[j]? = some (some y) → x.ctr = y.ctr → x.made = none → i = j
  owned : ∀ (k : Nat) d, w.mats[k]? = some (some d) → ∃ (i : Nat) (x : Group), w.groups[i]? = some (some x) ∧ x.made = some k

theorem fill_users {w : World α} {g : Nat} {x : Group} (hx : w.groups[g]? = some (some x)) (rows : List (List α)) (i : Nat) :
    users (w.fill g x rows) i = users w i := by
  have hgl := lt_of_getElem? hx
  unfold users World.fill
  have he : w.groups[g] = some x := by
    rw [List.getElem?_eq_getElem hgl] at hx; simpa using hx
  simp only []
  rw [List.countP_set hgl, he]
  by_cases e : x.ctr = i
  · subst e
    have := users_pos hx
    unfold users at this
    simp; omega
  · simp [e]

theorem add_exact {w : World α} {s : List (Option (View α))} (h : Rep w s) (hx : Exact w) (n : Nat) : Exact (w.add n) := by
  have hu' : ∀ i, users (w.add n) i = users w i + (if w.ctrs.length = i then 1 else 0) := by
    intro i
    have : users (w.add n) i = users { w with groups := w.groups ++ [some ⟨n, none, w.ctrs.length⟩] } i := rfl
    rw [this, users_append]; simp
  have grp : ∀ (i : Nat) y, (w.add n).groups[i]? = some (some y) →
      (i = w.groups.length ∧ y = ⟨n, none, w.ctrs.length⟩) ∨ (i ≠ w.groups.length ∧ w.groups[i]? = some (some y) ∧ y.ctr < w.ctrs.length) := by
    intro i y hy
    simp only [World.add, getElem?_snoc] at hy
    by_cases e : i = w.groups.length
    · rw [if_pos e] at hy; cases hy; exact Or.inl ⟨e, rfl⟩
    · rw [if_neg e] at hy
      obtain ⟨c, hc⟩ := h.ctr i y hy
      exact Or.inr ⟨e, hy, lt_of_getElem? hc⟩
  refine ⟨?_, ?_, ?_, ?_⟩
  · intro i y hy
    rw [hu']
    rcases grp i y hy with ⟨e, rfl⟩ | ⟨e, a, l⟩
    · simp [World.add, users_fresh h]
    · simp only [World.add, getElem?_snoc]
      rw [if_neg (by omega), if_neg (by omega)]
      simpa using hx.ctr i y a
  · intro i j y z hy hz hc
    rcases grp i y hy with ⟨e, rfl⟩ | ⟨e, a, l⟩ <;> rcases grp j z hz with ⟨e', rfl⟩ | ⟨e', b, l'⟩
    · rfl
    · simp only [] at hc; omega
    · simp only [] at hc; omega
    · exact hx.same i j y z a b hc
  · intro i j y z hy hz hc hn
    rcases grp i y hy with ⟨e, rfl⟩ | ⟨e, a, l⟩ <;> rcases grp j z hz with ⟨e', rfl⟩ | ⟨e', b, l'⟩
    · omega
    · simp only [] at hc; omega
    · simp only [] at hc; omega
    · exact hx.alone i j y z a b hc hn
  · intro k d hk
    obtain ⟨i, y, hy, hm⟩ := hx.owned k d hk
    refine ⟨i, y, ?_, hm⟩
    simp only [World.add, getElem?_snoc]
    rw [if_neg (by have := lt_of_getElem? hy; omega)]
    exact hy

theorem copy_exact {w w' : World α} (hx : Exact w) {g : Nat} {x : Group} (hg : w.groups[g]? = some (some x))
    (hm : x.made ≠ none) (h : w.copy g = .ok w') : Exact w' := by
  have hc := hx.ctr g x hg
  have hcl := lt_of_getElem? hc
  unfold World.copy at h
  rw [group_eq hg] at h
  simp only [Res.bind, rd_eq_ok.2 hc] at h
  cases h
  have hu' : ∀ i, users { w with ctrs := w.ctrs.set x.ctr ((users w x.ctr : Int) + 1), groups := w.groups ++ [some x] } i =
        users w i + (if x.ctr = i then 1 else 0) := by
    intro i
    have : users { w with ctrs := w.ctrs.set x.ctr ((users w x.ctr : Int) + 1), groups := w.groups ++ [some x] } i =
        users { w with groups := w.groups ++ [some x] } i := rfl
    rw [this, users_append]; simp
  have old : ∀ (i : Nat) y, (w.groups ++ [some x])[i]? = some (some y) → ∃ j : Nat, w.groups[j]? = some (some y) ∧ (j = i ∨ y = x) := by
    intro i y hy
    rw [getElem?_snoc] at hy
    by_cases e : i = w.groups.length
    · rw [if_pos e] at hy; cases hy
      exact ⟨g, hg, Or.inr rfl⟩
    · rw [if_neg e] at hy
      exact ⟨i, hy, Or.inl rfl⟩
  refine ⟨?_, ?_, ?_, ?_⟩
  · intro i y hy
    obtain ⟨j, a, _⟩ := old i y hy
    rw [hu']
    by_cases e : x.ctr = y.ctr
    · simp only []
      rw [← e, List.getElem?_set_self hcl]
      simp
    · simp only []
      rw [List.getElem?_set_ne e, hx.ctr j y a]
      simp [e]
  · intro i j y z hy hz
    obtain ⟨i', a, _⟩ := old i y hy
    obtain ⟨j', b, _⟩ := old j z hz
    exact hx.same i' j' y z a b
  · intro i j y z hy hz hc' hn
    obtain ⟨i', a, a'⟩ := old i y hy
    obtain ⟨j', b, b'⟩ := old j z hz
    have e := hx.alone i' j' y z a b hc' hn
    have hyx : y ≠ x := fun e => hm (e ▸ hn)
    have hzx : z ≠ x := by
      intro e'
      have := hx.same i' j' y z a b hc'
      rw [hn, e'] at this
      exact hm this.symm
    rcases a' with a' | a'
    · rcases b' with b' | b'
      · omega
      · exact absurd b' hzx
    · exact absurd a' hyx
  · intro k d hk
    obtain ⟨i, y, hy, hm'⟩ := hx.owned k d hk
    refine ⟨i, y, ?_, hm'⟩
    simp only [getElem?_snoc]
    rw [if_neg (by have := lt_of_getElem? hy; omega)]
    exact hy

theorem exists_other {w : World α} {g : Nat} {x : Group} (hg : w.groups[g]? = some (some x)) (h : 2 ≤ users w x.ctr) :
    ∃ (i : Nat) (y : Group), i ≠ g ∧ w.groups[i]? = some (some y) ∧ y.ctr = x.ctr := by
  have h1 := users_free hg x.ctr
  rw [if_pos rfl] at h1
  have hp : 0 < users ({ w with groups := w.groups.set g none } : World α) x.ctr := by omega
  unfold users at hp
  rw [List.countP_pos_iff] at hp
  obtain ⟨a, ha, hb⟩ := hp
  obtain ⟨i, hi⟩ := List.getElem?_of_mem ha
  cases a with
  | none => simp at hb
  | some y =>
    simp at hb
    by_cases e : g = i
    · subst e
      simp only [] at hi
      rw [List.getElem?_set_self (lt_of_getElem? hg)] at hi; cases hi
    · simp only [] at hi
      rw [List.getElem?_set_ne e] at hi
      exact ⟨i, y, Ne.symm e, hi, hb⟩

theorem free_exact {w w' : World α} (hx : Exact w) {g : Nat} {x : Group} (hg : w.groups[g]? = some (some x))
    (h : w.free g = .ok w') : Exact w' := by
  have hc := hx.ctr g x hg
  have hcl := lt_of_getElem? hc
  have hgl := lt_of_getElem? hg
  have hpos := users_pos hg
  have sub : ∀ (i : Nat) y, (w.groups.set g none)[i]? = some (some y) → i ≠ g ∧ w.groups[i]? = some (some y) := by
    intro i y hy
    by_cases e : g = i
    · subst e; rw [List.getElem?_set_self hgl] at hy; cases hy
    · rw [List.getElem?_set_ne e] at hy
      exact ⟨Ne.symm e, hy⟩
  have key : ∀ (ctrs : List Int) (mats : List (Option (List (List α)))),
      (∀ i, i ≠ x.ctr → ctrs[i]? = w.ctrs[i]?) →
      (2 ≤ users w x.ctr → ctrs[x.ctr]? = some ((users w x.ctr : Int) - 1)) →
      (∀ (k : Nat) d, mats[k]? = some (some d) → w.mats[k]? = some (some d) ∧ (2 ≤ users w x.ctr ∨ x.made ≠ some k)) →
      Exact ⟨mats, ctrs, w.groups.set g none⟩ := by
    intro ctrs mats hcs hcx hms
    refine ⟨?_, ?_, ?_, ?_⟩
    · intro i y hy
      obtain ⟨n, a⟩ := sub i y hy
      have hu : users (⟨mats, ctrs, w.groups.set g none⟩ : World α) y.ctr = users w y.ctr - (if x.ctr = y.ctr then 1 else 0) :=
        users_free hg y.ctr
      rw [hu]
      by_cases e : x.ctr = y.ctr
      · have := users_two hg a (Ne.symm n) e
        simp only []
        rw [if_pos e, ← e, hcx this]
        congr 1; omega
      · simp only []
        rw [hcs _ (Ne.symm e), if_neg e]
        exact hx.ctr i y a
    · intro i j y z hy hz
      exact hx.same i j y z (sub i y hy).2 (sub j z hz).2
    · intro i j y z hy hz
      exact hx.alone i j y z (sub i y hy).2 (sub j z hz).2
    · intro k d hk
      obtain ⟨hk', ho⟩ := hms k d hk
      obtain ⟨i, y, hy, hm⟩ := hx.owned k d hk'
      by_cases e : g = i
      · subst e
        have : y = x := by rw [hg] at hy; cases hy; rfl
        subst this
        rcases ho with ho | ho
        · obtain ⟨j, z, n, hz, hcz⟩ := exists_other hg ho
          refine ⟨j, z, by simp only []; rw [List.getElem?_set_ne (Ne.symm n)]; exact hz, ?_⟩
          rw [hx.same j g z y hz hg hcz]; exact hm
        · exact absurd hm ho
      · exact ⟨i, y, by simp only []; rw [List.getElem?_set_ne e]; exact hy, hm⟩
  unfold World.free at h
  rw [group_eq hg] at h
  simp only [Res.bind] at h
  unfold World.release at h
  cases hm : x.made with
  | none =>
    rw [hm] at h
    simp only [Res.bind] at h
    cases h
    apply key
    · intro _ _; rfl
    · intro h2
      obtain ⟨j, z, n, hz, hcz⟩ := exists_other hg h2
      exact absurd (hx.alone g j x z hg hz hcz.symm hm) (Ne.symm n)
    · intro k d hk
      exact ⟨hk, Or.inr (by rw [hm]; simp)⟩
  | some k =>
    rw [hm] at h
    simp only [rd_eq_ok.2 hc, Res.bind] at h
    by_cases z : (users w x.ctr : Int) - 1 = 0
    · rw [if_pos z] at h
      cases hkm : w.mats[k]? with
      | none => simp [World.freeMat, World.mat, hkm, Res.bind] at h
      | some od =>
        cases od with
        | none => simp [World.freeMat, World.mat, hkm, Res.bind] at h
        | some d0 =>
          simp only [World.freeMat, World.mat, hkm, Res.bind] at h
          cases h
          apply key
          · intro i hi; rw [List.getElem?_set_ne (Ne.symm hi)]
          · intro h2; omega
          · intro k' d' hk'
            by_cases e : k = k'
            · subst e
              simp only [List.getElem?_set_self (lt_of_getElem? hkm)] at hk'
              cases hk'
            · simp only [List.getElem?_set_ne e] at hk'
              exact ⟨hk', Or.inr (by rw [hm]; simpa using e)⟩
    · rw [if_neg z] at h
      cases h
      apply key
      · intro i hi; simp only []; rw [List.getElem?_set_ne (Ne.symm hi)]
      · intro _; simp only []; rw [List.getElem?_set_self hcl]
      · intro k' d' hk'
        exact ⟨hk', Or.inl (by omega)⟩

theorem fill_exact {w : World α} {s : List (Option (View α))} (h : Rep w s) (hx : Exact w) {g : Nat} {x : Group}
    (hg : w.groups[g]? = some (some x)) (hm : x.made = none) (rows : List (List α)) : Exact (w.fill g x rows) := by
  have hgl := lt_of_getElem? hg
  have grp : ∀ (i : Nat) y, (w.fill g x rows).groups[i]? = some (some y) →
      (i = g ∧ y = { x with made := some w.mats.length }) ∨ (i ≠ g ∧ w.groups[i]? = some (some y)) := by
    intro i y hy
    unfold World.fill at hy
    by_cases e : g = i
    · subst e
      simp only [List.getElem?_set_self hgl] at hy
      cases hy; exact Or.inl ⟨rfl, rfl⟩
    · simp only [List.getElem?_set_ne e] at hy
      exact Or.inr ⟨Ne.symm e, hy⟩
  refine ⟨?_, ?_, ?_, ?_⟩
  · intro i y hy
    rw [fill_users hg]
    rcases grp i y hy with ⟨rfl, rfl⟩ | ⟨n, a⟩
    · exact hx.ctr i x hg
    · exact hx.ctr i y a
  · intro i j y z hy hz hc
    rcases grp i y hy with ⟨rfl, rfl⟩ | ⟨n, a⟩ <;> rcases grp j z hz with ⟨rfl, rfl⟩ | ⟨n', b⟩
    · rfl
    · exact absurd (hx.alone i j x z hg b hc hm) (Ne.symm n')
    · exact absurd (hx.alone j i x y hg a hc.symm hm) (Ne.symm n)
    · exact hx.same i j y z a b hc
  · intro i j y z hy hz hc hn
    rcases grp i y hy with ⟨rfl, rfl⟩ | ⟨n, a⟩ <;> rcases grp j z hz with ⟨rfl, rfl⟩ | ⟨n', b⟩
    · rfl
    · cases hn
    · exact absurd (hx.alone j i x y hg a hc.symm hm) (Ne.symm n)
    · exact hx.alone i j y z a b hc hn
  · intro k d hk
    simp only [World.fill, getElem?_snoc] at hk
    by_cases e : k = w.mats.length
    · exact ⟨g, { x with made := some w.mats.length }, by simp only [World.fill, List.getElem?_set_self hgl], by rw [e]⟩
    · rw [if_neg e] at hk
      obtain ⟨i, y, hy, hy'⟩ := hx.owned k d hk
      have n : g ≠ i := by
        intro e'; subst e'
        rw [hg] at hy; cases hy
        rw [hm] at hy'; cases hy'
      exact ⟨i, y, by simp only [World.fill, List.getElem?_set_ne n]; exact hy, hy'⟩

theorem step_exact {w : World α} {s s' : List (Option (View α))} {o : Op α} {vs : List (Option ℚ)} (h : Rep w s) (hx : Exact w)
    (hm : Means s o s' vs) (hd : DrawnFirst s o) {w' : World α} {r : Option (Option ℚ)} (e : w.step gt o = .ok (w', r)) : Exact w' := by
  cases hm with
  | add n hn => cases e; exact add_exact h hx n
  | copy g v hv =>
    obtain ⟨x, hg⟩ := h.live hv
    obtain ⟨w1, e1, _⟩ := copy_rep h hv
    simp only [World.step, e1, Res.bind] at e
    cases e
    refine copy_exact hx hg ?_ e1
    intro hn
    have := h.undrawn g x v hg hv hn
    have := hd v hv
    simp_all
  | free g v hv =>
    obtain ⟨x, hg⟩ := h.live hv
    obtain ⟨w1, e1, _⟩ := free_rep h hv
    simp only [World.step, e1, Res.bind] at e
    cases e
    exact free_exact hx hg e1
  | again g n ref rows v d hv hd' hr =>
    obtain ⟨x, hg⟩ := h.live hv
    cases hmade : x.made with
    | none =>
      have := h.undrawn g x v hg hv hmade
      rw [hd'] at this; cases this
    | some k =>
      obtain ⟨d', d1, d2, d3⟩ := h.drawn g x v k hg hv hmade
      rw [hd'] at d1; cases d1
      simp only [World.step, World.cdf, group_eq hg, Res.bind, hmade, eval_eq d3 d2 ref hr] at e
      cases e; exact hx
  | first g n ref rows v hv hd' hn hl hp hw hr =>
    obtain ⟨x, hg⟩ := h.live hv
    cases hmade : x.made with
    | some k =>
      obtain ⟨d', d1, d2, d3⟩ := h.drawn g x v k hg hv hmade
      rw [hd'] at d1; cases d1
    | none =>
      have hne : rows ≠ [] := by intro e; rw [e] at hl; simp at hl; omega
      simp only [World.step, World.cdf, group_eq hg, Res.bind, hmade] at e
      rw [if_neg (by omega)] at e
      rw [eval_eq (d := rows) (by simp [World.fill]) hne ref (fun r hr' => by rw [hw r hr']; exact hr)] at e
      cases e
      exact fill_exact h hx hg hmade rows
  | nosize g ref rows v hv hd' =>
    obtain ⟨x, hg⟩ := h.live hv
    cases hmade : x.made with
    | some k =>
      obtain ⟨d', d1, d2, d3⟩ := h.drawn g x v k hg hv hmade
      rw [hd'] at d1; cases d1
    | none =>
      simp only [World.step, World.cdf, group_eq hg, Res.bind, hmade] at e
      cases e; exact hx

theorem run_exact {s : List (Option (View α))} {os : List (Op α)} (ht : Tidy s os) :
    ∀ {w : World α}, Rep w s → Exact w → ∃ w' vs s', World.run gt w os = .ok (w', vs) ∧ Rep w' s' ∧ Exact w' := by
  induction ht with
  | nil s => intro w h hx; exact ⟨w, [], s, rfl, h, hx⟩
  | cons s s' o os v hm hd _ ih =>
    intro w h hx
    obtain ⟨w1, r, e1, e2, h1⟩ := step_rep h hm
    obtain ⟨w2, vs, s2, e3, h2, x2⟩ := ih h1 (step_exact h hx hm hd e1)
    refine ⟨w2, r.toList ++ vs, s2, ?_, h2, x2⟩
    simp only [World.run, e1, Res.bind, e3]

/-- **C112**: in every history in which copies are only made of groups that already have draws, every matrix of draws in
memory at the end is in use by a group not yet freed: the last user's free frees it, and not before (C111: no freed matrix
is ever used or freed again). -/
theorem C112_no_leak (os : List (Op α)) (h : Tidy [] os) :
    ∃ w vs, World.run gt {} os = .ok (w, vs) ∧
      (∀ (k : Nat) d, w.mats[k]? = some (some d) → ∃ (i : Nat) (x : Group), w.groups[i]? = some (some x) ∧ x.made = some k) ∧
      (∀ (i : Nat) (x : Group) (k : Nat), w.groups[i]? = some (some x) → x.made = some k → ∃ d, w.mats[k]? = some (some d)) := by
  obtain ⟨w, vs, s, e, r, x⟩ := run_exact h empty_rep ⟨by simp, by simp, by simp, by simp⟩
  refine ⟨w, vs, e, x.owned, ?_⟩
  intro i y k hy hk
  obtain ⟨v, hv⟩ := r.view hy
  obtain ⟨d, _, _, d3⟩ := r.drawn i y v k hy hv hk
  exact ⟨d, d3⟩

/-- **C112, no double free or use after free** in any history at all, copies before the draws included: every live group's
draws are in memory at the end. -/
theorem C112_safe (os : List (Op α)) (s : List (Option (View α))) (vs : List (Option ℚ)) (h : History [] os s vs) :
    ∃ w, World.run gt {} os = .ok (w, vs) ∧
      (∀ (i : Nat) (x : Group) (k : Nat), w.groups[i]? = some (some x) → x.made = some k → ∃ d, w.mats[k]? = some (some d)) := by
  obtain ⟨w, e, r⟩ := run_rep h empty_rep
  refine ⟨w, e, ?_⟩
  intro i y k hy hk
  obtain ⟨v, hv⟩ := r.view hy
  obtain ⟨d, _, _, d3⟩ := r.drawn i y v k hy hv hk
  exact ⟨d, d3⟩

example : Tidy (α := ℤ) [] [.add 2, .cdf 0 1 [2] [[1], [3]], .copy 0, .free 0, .free 1] := by
  apply Tidy.cons (h := Means.add _ _ (by decide)) (d := trivial)
  apply Tidy.cons (h := Means.first _ 0 1 [2] [[1], [3]] ⟨2, none⟩ rfl rfl (by decide) rfl (by decide) (by decide) (by decide)) (d := trivial)
  apply Tidy.cons (h := Means.copy _ 0 ⟨2, some [[1], [3]]⟩ rfl) (d := by intro v h; cases h; rfl)
  apply Tidy.cons (h := Means.free _ 0 ⟨2, some [[1], [3]]⟩ rfl) (d := trivial)
  apply Tidy.cons (h := Means.free _ 1 ⟨2, some [[1], [3]]⟩ rfl) (d := trivial)
  exact Tidy.nil _

/-- A group copied before its first cdf call (every `apop_estimate` copies the model's groups): all groups are freed and the
draws are still in memory, for ever. -/
theorem C112_leak_refuted : ∃ w : World ℤ, World.run gt {} [.add 1, .copy 0, .cdf 0 1 [2] [[1]], .free 1, .free 0] =
    .ok (w, [some 1]) ∧ w.mats = [some [[1]]] ∧ w.groups = [none, none] := by
  refine ⟨⟨[some [[1]]], [1], [none, none]⟩, ?_, rfl, rfl⟩
  simp [World.run, World.step, World.add, World.cdf, World.group, World.fill, World.eval, World.mat, tally, lte, gt,
    Res.bind, ratio, World.copy, World.free, World.release, rd]

/-- The comparison of `double`s: NaN (`none`) compares false. -/
def gtNaN : Option ℤ → Option ℤ → Bool
  | some a, some b => decide (b < a)
  | _, _ => false

/-- With NaN as a draw or as a coordinate of the point, the draw counts as below the point: here the "probability" of being
at or below NaN is one. -/
theorem C111_nan_refuted :
    tally gtNaN [none] [[some 5], [some 7]] = .ok 2 ∧ tally gtNaN [some 0] [[none], [some 7]] = .ok 1 := by decide

/-- A point with fewer coordinates than the draws is read past its end. -/
theorem C111_narrow_refuted : tally (gt (α := ℤ)) [5] [[1, 2]] = .ub := by decide

end Apop.Mod.Cdf
