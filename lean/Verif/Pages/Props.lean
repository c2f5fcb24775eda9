import Verif.Pages.Model
import Verif.Data.CopyProps

/-! # C05 (circular chains) and C17 (pages) -/

namespace Apop.Pages
variable {α : Type}

/-! ## C05 -/

/-- Specification: starting at the first address of `as`, the `more` pointers lead through exactly the
(distinct, live) addresses `as`, and the last page's `more` is `last`. -/
def Path (h : Heap α) : List Nat → Option Nat → Prop
  | [], _ => False
  | [a], last => ∃ n, h a = some n ∧ n.more = last
  | a :: b :: rest, last => (∃ n, h a = some n ∧ n.more = some b) ∧ Path h (b :: rest) last

theorem Path.live {h : Heap α} {as : List Nat} {last} (hp : Path h as last) : ∀ a ∈ as, ∃ n, h a = some n := by
  induction as with
  | nil => exact hp.elim
  | cons a rest ih =>
    cases rest with
    | nil =>
      obtain ⟨n, hn, -⟩ := hp
      intro x hx; simp at hx; subst hx; exact ⟨n, hn⟩
    | cons b rest =>
      obtain ⟨⟨n, hn, -⟩, hp'⟩ := hp
      intro x hx
      rcases List.mem_cons.1 hx with rfl | hx
      · exact ⟨n, hn⟩
      · exact ih hp' x hx

/-- **C05** (free, chains that end). Freeing the head of a chain that ends returns 0, frees exactly
the pages of the chain, and leaves every other page alone. -/
theorem C05_free_terminates (h : Heap α) (as : List Nat) (hnd : as.Nodup) (hp : Path h as none)
    (fuel : Nat) (hf : as.length ≤ fuel) :
    ∃ h', free fuel h as.head? = some (.ok (h', none)) ∧
      ∀ x, h' x = if x ∈ as then none else h x := by
  induction as generalizing fuel with
  | nil => exact hp.elim
  | cons a rest ih =>
    obtain ⟨fuel, rfl⟩ : ∃ k, fuel = k + 1 := ⟨fuel - 1, by simp at hf; omega⟩
    cases rest with
    | nil =>
      obtain ⟨n, hn, hm⟩ := hp
      refine ⟨h.set a none, by simp [free, hn, hm], ?_⟩
      intro x; simp [Heap.set]
    | cons b rest =>
      obtain ⟨⟨n, hn, hm⟩, hp'⟩ := hp
      have hab : a ∉ b :: rest := (List.nodup_cons.1 hnd).1
      have hne : b ≠ a := fun e => hab (by simp [e])
      obtain ⟨h1, e1, g1⟩ := ih (List.nodup_cons.1 hnd).2 hp' fuel (by simp at hf ⊢; omega)
      simp only [List.head?_cons] at e1
      have ha : h1 a = some n := by rw [g1, if_neg hab, hn]
      refine ⟨h1.set a none, by simp [free, hn, hm, hne, e1, ha], ?_⟩
      intro x
      simp only [Heap.set]
      by_cases hx : x = a
      · simp [hx]
      · rw [if_neg hx, g1]; simp [hx]

/-- **C05** (free, self-loop at the end). If the last page of the chain points to itself, nothing is
freed, 'c' is returned, and every page on the way is marked with error 'c' (and not otherwise
changed). -/
theorem C05_free_self_loop (h : Heap α) (as : List Nat) (hnd : as.Nodup)
    (hp : Path h as as.getLast?) (fuel : Nat) (hf : as.length ≤ fuel) :
    ∃ h', free fuel h as.head? = some (.ok (h', some 'c')) ∧
      ∀ x, h' x = if x ∈ as then (h x).map mark else h x := by
  have key : ∀ (last : Nat) (as : List Nat), as.getLast? = some last → as.Nodup → Path h as (some last) →
      ∀ fuel, as.length ≤ fuel → ∃ h', free fuel h as.head? = some (.ok (h', some 'c')) ∧
      ∀ x, h' x = if x ∈ as then (h x).map mark else h x := by
    intro last as
    induction as with
    | nil => intro _ _ hp; exact hp.elim
    | cons a rest ih =>
      intro hl hnd hp fuel hf
      obtain ⟨fuel, rfl⟩ : ∃ k, fuel = k + 1 := ⟨fuel - 1, by simp at hf; omega⟩
      cases rest with
      | nil =>
        simp at hl; subst hl
        obtain ⟨n, hn, hm⟩ := hp
        refine ⟨h.set a (some (mark n)), by simp [free, hn, hm], ?_⟩
        intro x
        simp only [Heap.set, List.mem_singleton]
        split
        · rename_i e; subst e; simp [hn]
        · rfl
      | cons b rest =>
        obtain ⟨⟨n, hn, hm⟩, hp'⟩ := hp
        have hab : a ∉ b :: rest := (List.nodup_cons.1 hnd).1
        have hne : b ≠ a := fun e => hab (by simp [e])
        rw [List.getLast?_cons_cons] at hl
        obtain ⟨h1, e1, g1⟩ := ih hl (List.nodup_cons.1 hnd).2 hp' fuel (by simp at hf ⊢; omega)
        simp only [List.head?_cons] at e1
        have ha : h1 a = some n := by rw [g1, if_neg hab, hn]
        obtain ⟨nb, hnb⟩ := hp'.live b (by simp)
        have hb : h1 b = some (mark nb) := by rw [g1, if_pos (by simp), hnb]; rfl
        have hbe : (mark nb).page.error = some 'c' := rfl
        refine ⟨h1.set a (some (mark n)), ?_, ?_⟩
        · simp only [free, hn, hm, hne, List.head?_cons, if_false, e1, ha, Option.isSome_some,
            if_true, hb, hbe]
        · intro x
          simp only [Heap.set]
          by_cases hx : x = a
          · subst hx; simp [hn]
          · rw [if_neg hx, g1]; simp [hx]
  cases hl : as.getLast? with
  | none => rw [List.getLast?_eq_none_iff.1 hl] at hp; exact hp.elim
  | some last => rw [hl] at hp; exact key last as hl hnd hp fuel hf

/-- A page from which `more` can be followed for ever without meeting a page that points to itself. -/
def Endless (h : Heap α) (S : Nat → Prop) : Prop :=
  ∀ a, S a → ∃ n b, h a = some n ∧ n.more = some b ∧ b ≠ a ∧ S b

/-- **C05** (finding): freeing a page on a longer cycle never returns, whatever the recursion depth
allowed. -/
theorem C05_free_longer_cycle_diverges (h : Heap α) (S : Nat → Prop) (hS : Endless h S) (a : Nat)
    (ha : S a) (fuel : Nat) : free fuel h (some a) = none := by
  induction fuel generalizing a with
  | zero => rfl
  | succ fuel ih =>
    obtain ⟨n, b, hn, hm, hne, hb⟩ := hS a ha
    simp [free, hn, hm, hne, ih b hb]

/-- **C05** (finding): so does copying it. -/
theorem C05_copy_longer_cycle_diverges (junk : α) (h : Heap α) (S : Nat → Prop) (hS : Endless h S)
    (a : Nat) (ha : S a) (fuel : Nat) : copy junk fuel h (some a) = none := by
  induction fuel generalizing a with
  | zero => rfl
  | succ fuel ih =>
    obtain ⟨n, b, hn, hm, hne, hb⟩ := hS a ha
    simp [copy, hn, hm, hne, ih b hb]

/-- **C05** (copy, self-loop at the end). The copy terminates and every page of the result carries
error 'c'. -/
theorem C05_copy_self_loop (junk : α) (h : Heap α) (as : List Nat) (hnd : as.Nodup)
    (hp : Path h as as.getLast?) (fuel : Nat) (hf : as.length ≤ fuel) :
    ∃ l, copy junk fuel h as.head? = some (.ok l) ∧ l.length = as.length ∧
      ∀ p ∈ l, p.error = some 'c' := by
  have key : ∀ (last : Nat) (as : List Nat), as.getLast? = some last → as.Nodup → Path h as (some last) →
      ∀ fuel, as.length ≤ fuel → ∃ l, copy junk fuel h as.head? = some (.ok l) ∧
        l.length = as.length ∧ ∀ p ∈ l, p.error = some 'c' := by
    intro last as
    induction as with
    | nil => intro _ _ hp; exact hp.elim
    | cons a rest ih =>
      intro hl hnd hp fuel hf
      obtain ⟨fuel, rfl⟩ : ∃ k, fuel = k + 1 := ⟨fuel - 1, by simp at hf; omega⟩
      cases rest with
      | nil =>
        simp at hl; subst hl
        obtain ⟨n, hn, hm⟩ := hp
        exact ⟨[{ (Page.empty : Page α) with error := some 'c' }], by simp [copy, hn, hm], rfl, by simp⟩
      | cons b rest =>
        obtain ⟨⟨n, hn, hm⟩, hp'⟩ := hp
        have hab : a ∉ b :: rest := (List.nodup_cons.1 hnd).1
        have hne : b ≠ a := fun e => hab (by simp [e])
        rw [List.getLast?_cons_cons] at hl
        obtain ⟨l1, e1, g1, g2⟩ := ih hl (List.nodup_cons.1 hnd).2 hp' fuel (by simp at hf ⊢; omega)
        simp only [List.head?_cons] at e1
        cases l1 with
        | nil => simp at g1
        | cons m ms =>
          have hme : m.error = some 'c' := g2 m (by simp)
          refine ⟨{ (Page.empty : Page α) with error := some 'c' } :: m :: ms, ?_, ?_, ?_⟩
          · simp [copy, hn, hm, hne, e1, hme]
          · simp at g1 ⊢; exact g1
          · intro p hp2
            rcases List.mem_cons.1 hp2 with rfl | hp2
            · rfl
            · exact g2 p hp2
  cases hl : as.getLast? with
  | none => rw [List.getLast?_eq_none_iff.1 hl] at hp; exact hp.elim
  | some last => rw [hl] at hp; exact key last as hl hnd hp fuel hf

theorem chain_of_path (h : Heap α) (as : List Nat) (hp : Path h as none) (fuel : Nat)
    (hf : as.length ≤ fuel) :
    ∃ ps, chain fuel h as.head? = some (.ok ps) ∧
      ∀ k : Nat, ps[k]? = (as[k]?).bind (fun a => (h a).map Node.page) := by
  induction as generalizing fuel with
  | nil => exact hp.elim
  | cons a rest ih =>
    obtain ⟨fuel, rfl⟩ : ∃ k, fuel = k + 1 := ⟨fuel - 1, by simp at hf; omega⟩
    cases rest with
    | nil =>
      obtain ⟨n, hn, hm⟩ := hp
      refine ⟨[n.page], ?_, ?_⟩
      · simp [chain, hn, hm]
      · intro k; cases k <;> simp [hn]
    | cons b rest =>
      obtain ⟨⟨n, hn, hm⟩, hp'⟩ := hp
      obtain ⟨ps, e, g⟩ := ih hp' fuel (by simp at hf ⊢; omega)
      simp only [List.head?_cons] at e
      refine ⟨n.page :: ps, ?_, ?_⟩
      · simp [chain, hn, hm, e]
      · intro k
        cases k with
        | zero => simp [hn]
        | succ k => simpa using g k

/-- **C05** (copy, chains that end). On a chain that ends, whose pages are well formed and carry no
error, the heap version terminates and agrees with the list model of C04 (so C04's theorems apply). -/
theorem C05_copy_terminates (junk : α) (h : Heap α) (as : List Nat) (hnd : as.Nodup)
    (hp : Path h as none) (hok : ∀ a ∈ as, ∀ n, h a = some n → n.page.WF ∧ n.page.error = none)
    (fuel : Nat) (hf : as.length ≤ fuel) :
    ∃ ps, chain fuel h as.head? = some (.ok ps) ∧
      copy junk fuel h as.head? = some (Page.copy junk ps) ∧
      copy junk fuel h as.head? = some (.ok (ps.map Page.copyOf)) := by
  induction as generalizing fuel with
  | nil => exact hp.elim
  | cons a rest ih =>
    obtain ⟨fuel, rfl⟩ : ∃ k, fuel = k + 1 := ⟨fuel - 1, by simp at hf; omega⟩
    cases rest with
    | nil =>
      obtain ⟨n, hn, hm⟩ := hp
      obtain ⟨hw, he⟩ := hok a (by simp) n hn
      have hc := Page.copy_eq junk [n.page] (by simpa using hw) (by simpa using he)
      exact ⟨[n.page], by simp [chain, hn, hm], by simp [copy, hn, hm], by simp [copy, hn, hm, hc]⟩
    | cons b rest =>
      obtain ⟨⟨n, hn, hm⟩, hp'⟩ := hp
      have hab : a ∉ b :: rest := (List.nodup_cons.1 hnd).1
      have hne : b ≠ a := fun e => hab (by simp [e])
      obtain ⟨ps, e1, e2, e3⟩ := ih (List.nodup_cons.1 hnd).2 hp'
        (fun a ha => hok a (by simp [ha])) fuel (by simp at hf ⊢; omega)
      simp only [List.head?_cons] at e1 e2 e3
      obtain ⟨hw, he⟩ := hok a (by simp) n hn
      obtain ⟨ps', e1', g⟩ := chain_of_path h (b :: rest) hp' fuel (by simp at hf ⊢; omega)
      simp only [List.head?_cons, e1, Option.some.injEq, Res.ok.injEq] at e1'
      subst e1'
      have hps : ∀ p ∈ n.page :: ps, p.WF ∧ p.error = none := by
        intro p hp2
        rcases List.mem_cons.1 hp2 with rfl | hp2
        · exact ⟨hw, he⟩
        · obtain ⟨k, hk⟩ := List.getElem?_of_mem hp2
          rw [g k] at hk
          obtain ⟨x, hx, hx2⟩ := Option.bind_eq_some_iff.1 hk
          obtain ⟨nx, hnx, rfl⟩ := Option.map_eq_some_iff.1 hx2
          exact hok x (List.mem_cons_of_mem _ (List.mem_of_getElem? hx)) nx hnx
      have hcc := Page.copy_eq junk (n.page :: ps) (fun p hp => (hps p hp).1) (fun p hp => (hps p hp).2)
      have hne2 : ps ≠ [] := by
        intro h0
        have := g 0
        obtain ⟨nb, hnb⟩ := hp'.live b (by simp)
        simp [h0, hnb] at this
      cases ps with
      | nil => exact absurd rfl hne2
      | cons q qs =>
        have hq : (Page.copyOf q).error = none := rfl
        have hcopy : copy junk (fuel + 1) h (some a) = some (Page.copy junk (n.page :: q :: qs)) := by
          have hcq : Page.copy junk (q :: qs) = .ok (Page.copyOf q :: qs.map Page.copyOf) := by
            rw [e3] at e2; simpa using e2.symm
          simp only [copy, hn, hm, hne, if_false, e3, List.map_cons, hq, he, Option.isSome_none,
            Bool.false_eq_true, false_and, e1, Page.copy, hcq, Res.bind_ok]
        refine ⟨n.page :: q :: qs, by simp [chain, hn, hm, e1], by simp [hcopy], ?_⟩
        simp only [List.head?_cons]
        rw [hcopy, hcc]

/-- Non-vacuity: a two-page chain, a self-loop reached through another page, and a two-cycle. -/
def twoPages : Heap Nat := fun a => if a = 1 then some ⟨Page.demoPage, some 2⟩
  else if a = 2 then some ⟨Page.demoPage, none⟩ else none
def selfLoop : Heap Nat := fun a => if a = 1 then some ⟨Page.demoPage, some 2⟩
  else if a = 2 then some ⟨Page.demoPage, some 2⟩ else none
def twoCycle : Heap Nat := fun a => if a = 1 then some ⟨Page.demoPage, some 2⟩
  else if a = 2 then some ⟨Page.demoPage, some 1⟩ else none
example : Path twoPages [1, 2] none := by simp [Path, twoPages]
example : Path selfLoop [1, 2] ([1, 2].getLast?) := by simp [Path, selfLoop]
example : Endless twoCycle (fun a => a = 1 ∨ a = 2) := by
  intro a ha
  rcases ha with rfl | rfl
  · exact ⟨_, 2, rfl, rfl, by decide, Or.inr rfl⟩
  · exact ⟨_, 1, rfl, rfl, by decide, Or.inl rfl⟩

/-! ## C17 -/

/-- Specification of "the page's title matches". -/
def TitleMatches (regex : CStr → CStr → Bool) (m : Char) (want : CStr) (p : Page α) : Prop :=
  ∃ n t, p.names = some n ∧ n.title = some t ∧
    ((m = 'c' ∧ caseEq t want = true) ∨ (m = 'r' ∧ regex t want = true) ∨ (m = 'e' ∧ t = want))

theorem pageMatches_iff (regex) (m : Char) (want : CStr) (p : Page α)
    (hm : m = 'c' ∨ m = 'r' ∨ m = 'e') :
    pageMatches regex m want p = true ↔ TitleMatches regex m want p := by
  unfold pageMatches title TitleMatches
  cases hn : p.names with
  | none => simp
  | some n =>
    cases ht : n.title with
    | none => simp [ht]
    | some t => rcases hm with rfl | rfl | rfl <;> simp [ht]

/-- **C17** (get). The pointer returned is the tail of the chain starting at the first matching page;
NULL iff no page matches (for match types c, r, e). -/
theorem C17_get_page (regex) (ps : List (Page α)) (want : CStr) (m : Char)
    (hm : m = 'c' ∨ m = 'r' ∨ m = 'e') :
    (getPage regex ps (some want) (some m) = [] ∧ ∀ p ∈ ps, ¬ TitleMatches regex m want p) ∨
    (∃ before p after, ps = before ++ p :: after ∧ (∀ q ∈ before, ¬ TitleMatches regex m want q) ∧
      TitleMatches regex m want p ∧ getPage regex ps (some want) (some m) = p :: after) := by
  have hok : ¬ (m ≠ 'r' ∧ m ≠ 'e' ∧ m ≠ 'c') := by rcases hm with rfl | rfl | rfl <;> simp
  simp only [getPage, Option.getD_some, hok, if_false]
  induction ps with
  | nil => left; simp [getLoop]
  | cons p ps ih =>
    by_cases hp : pageMatches regex m want p = true
    · right
      exact ⟨[], p, ps, rfl, by simp, (pageMatches_iff _ _ _ _ hm).1 hp, by simp [getLoop, hp]⟩
    · have hp' : ¬ TitleMatches regex m want p := fun h => hp ((pageMatches_iff _ _ _ _ hm).2 h)
      have e : getLoop regex m want (p :: ps) = getLoop regex m want ps := by simp [getLoop, hp]
      rw [e]
      rcases ih with ⟨h1, h2⟩ | ⟨b, q, a, h1, h2, h3, h4⟩
      · left; refine ⟨h1, ?_⟩
        intro q hq
        rcases List.mem_cons.1 hq with rfl | hq
        · exact hp'
        · exact h2 q hq
      · right
        refine ⟨p :: b, q, a, by simp [h1], ?_, h3, h4⟩
        intro x hx
        rcases List.mem_cons.1 hx with rfl | hx
        · exact hp'
        · exact h2 x hx

/-- **C17** (defaults and bad match type): default title "<Info>", default match case-insensitive; an
unknown match type gives NULL. -/
theorem C17_get_page_defaults (regex) (ps : List (Page α)) :
    getPage regex ps none none = getPage regex ps (some (str "<Info>")) (some 'c') ∧
    ∀ want m, m ≠ 'r' → m ≠ 'e' → m ≠ 'c' → getPage regex ps want (some m) = [] := by
  have : str "<Info>" = [60, 73, 110, 102, 111, 62] := by decide +kernel
  refine ⟨by rw [this]; rfl, ?_⟩
  intro want m h1 h2 h3; simp [getPage, h1, h2, h3]

/-- **C17** (add). Adding a (nonempty) page chain puts it at the end, the other pages are untouched
and in order, and the new page has the given title, every other part of it unchanged. -/
theorem C17_add_page (ps rest : List (Page α)) (p : Page α) (t : CStr) :
    ∃ q, addPage ps (p :: rest) (some t) = ps ++ q :: rest ∧ title q = some t ∧
      q.vector = p.vector ∧ q.matrix = p.matrix ∧ q.text = p.text ∧ q.textsize = p.textsize ∧
      q.weights = p.weights ∧ q.error = p.error ∧
      (∀ n, p.names = some n → ∃ m, q.names = some m ∧ m.row = n.row ∧ m.col = n.col ∧
        m.text = n.text ∧ m.vector = n.vector) := by
  refine ⟨retitle p (some t), rfl, by simp [retitle, title], rfl, rfl, rfl, rfl, rfl, rfl, ?_⟩
  intro n hn
  simp [retitle, hn]

/-- **C17** (add then get). A page added under a fresh title is the one found under that title. -/
theorem C17_add_get (regex) (ps : List (Page α)) (p : Page α) (t : CStr)
    (hfresh : ∀ q ∈ ps, ¬ TitleMatches regex 'c' t q) :
    ∃ q, addPage ps [p] (some t) = ps ++ [q] ∧ title q = some t ∧
      getPage regex (addPage ps [p] (some t)) (some t) none = [q] := by
  refine ⟨retitle p (some t), rfl, by simp [retitle, title], ?_⟩
  simp only [addPage, getPage, Option.getD_some, Option.getD_none]
  rw [if_neg (by simp)]
  have hn : pageMatches regex 'c' t (retitle p (some t)) = true :=
    (pageMatches_iff _ _ _ _ (Or.inl rfl)).2
      ⟨_, t, rfl, rfl, Or.inl ⟨rfl, caseEq_refl t⟩⟩
  induction ps with
  | nil => simp [getLoop, hn]
  | cons a ps ih =>
    have ha : ¬ pageMatches regex 'c' t a = true := fun h =>
      hfresh a (by simp) ((pageMatches_iff _ _ _ _ (Or.inl rfl)).1 h)
    simp only [List.cons_append, getLoop, ha]
    exact ih (fun q hq => hfresh q (by simp [hq]))

/-- **C17** (remove; every page after the head has a title, see `C17_rm_untitled_ub`).
The head is never removed; the first later page whose title matches is taken out and returned, the
others stay in order; if there is none, nothing changes and NULL is returned. -/
theorem C17_rm_page (head : Page α) (tail : List (Page α)) (want : CStr)
    (ht : ∀ p ∈ tail, (title p).isSome) (regex) :
    (rmPage (head :: tail) (some want) = .ok (head :: tail, none) ∧
      ∀ p ∈ tail, ¬ TitleMatches regex 'c' want p) ∨
    (∃ before p after, tail = before ++ p :: after ∧ (∀ q ∈ before, ¬ TitleMatches regex 'c' want q) ∧
      TitleMatches regex 'c' want p ∧
      rmPage (head :: tail) (some want) = .ok (head :: (before ++ after), some p)) := by
  have tm : ∀ p : Page α, ∀ t, title p = some t → (TitleMatches regex 'c' want p ↔ caseEq t want = true) := by
    intro p t htt
    rw [← pageMatches_iff _ _ _ _ (Or.inl rfl)]
    simp [pageMatches, htt]
  simp only [rmPage, Option.getD_some]
  induction tail with
  | nil => left; simp [rmLoop]
  | cons p ps ih =>
    obtain ⟨t, hpt⟩ := Option.isSome_iff_exists.1 (ht p (by simp))
    by_cases hc : caseEq t want = true
    · right
      exact ⟨[], p, ps, rfl, by simp, (tm p t hpt).2 hc, by simp [rmLoop, hpt, hc]⟩
    · have hno : ¬ TitleMatches regex 'c' want p := fun h => hc ((tm p t hpt).1 h)
      rcases ih (fun q hq => ht q (by simp [hq])) with ⟨h1, h2⟩ | ⟨b, q, a, h1, h2, h3, h4⟩
      · left
        constructor
        · cases hr : rmLoop want ps with
          | ub => simp [hr] at h1
          | ok x =>
            obtain ⟨l, r⟩ := x
            simp [hr] at h1
            simp [rmLoop, hpt, hc, hr, h1]
        · intro q hq
          rcases List.mem_cons.1 hq with rfl | hq
          · exact hno
          · exact h2 q hq
      · right
        refine ⟨p :: b, q, a, by simp [h1], ?_, h3, ?_⟩
        · intro x hx
          rcases List.mem_cons.1 hx with rfl | hx
          · exact hno
          · exact h2 x hx
        · cases hr : rmLoop want ps with
          | ub => simp [hr] at h4
          | ok x =>
            obtain ⟨l, r⟩ := x
            simp [hr] at h4
            simp [rmLoop, hpt, hc, hr, h4]

/-- **C17** (finding): an untitled page met before a match makes apop_data_rm_page compare a NULL
string, although apop_data_get_page copes with untitled pages. -/
theorem C17_rm_untitled_ub (head p : Page α) (ps : List (Page α)) (want : CStr)
    (h : title p = none) : rmPage (head :: p :: ps) (some want) = .ub := by
  simp [rmPage, rmLoop, h]

example : title Page.demoPage = some (str "T") := by decide +kernel
example : (rmPage [Page.demoPage, retitle Page.demoPage (some (str "x")), Page.demoPage]
    (some (str "X"))).map (fun r => r.1.length) = .ok 2 := by decide +kernel

end Apop.Pages
