import Verif.Asst.Model

/-! # C29: per-thread random number generators -/

namespace Apop.Asst

/-- What a program may do: ask for a generator from some thread, or assign to `apop_opts.rng_seed`. -/
inductive RngOp where
  | get (thread : Int) (caller : Nat)
  | reseed (n : Nat)

/-- A run: the final state and the generators returned, with the number asked for. -/
def rngRun : List RngOp → Rngs → Res (Rngs × List (Int × (Nat × Nat)))
  | [], r => .ok (r, [])
  | .get t c :: ops, r => do
    let (r, x) ← r.get t c
    let (r, xs) ← rngRun ops r
    .ok (r, (t, x) :: xs)
  | .reseed n :: ops, r => rngRun ops { r with seed := n }

/-- All generators were made by this function, in order. -/
def Rngs.Inv (r : Rngs) : Prop := r.made = r.rngs.length ∧ ∀ (k : Nat) (x : Nat × Nat), r.rngs[k]? = some x → x.2 = k

theorem addOne_inv {r : Rngs} (h : r.Inv) : r.addOne.Inv := by
  refine ⟨by simp [Rngs.addOne, h.1], ?_⟩
  intro k x hx
  simp only [Rngs.addOne] at hx
  by_cases hk : k < r.rngs.length
  · rw [List.getElem?_append_left hk] at hx; exact h.2 k x hx
  · rw [List.getElem?_append_right (by omega)] at hx
    have : k - r.rngs.length = 0 := by
      have := (List.getElem?_eq_some_iff.1 hx).1
      simpa using this
    rw [this] at hx
    simp only [List.getElem?_cons_zero, Option.some.injEq] at hx
    rw [← hx, h.1]
    simp only
    omega

theorem addMany_spec : ∀ (n : Nat) (r : Rngs), r.Inv →
    (r.addMany n).Inv ∧ r.rngs <+: (r.addMany n).rngs ∧ (r.addMany n).rngs.length = r.rngs.length + n ∧
    (r.addMany n).seed = r.seed + n ∧
    ∀ k, r.rngs.length ≤ k → k < r.rngs.length + n → (r.addMany n).rngs[k]? = some (r.seed + (k - r.rngs.length) + 1, k)
  | 0, r, h => ⟨h, List.prefix_refl _, rfl, rfl, by intro k h1 h2; omega⟩
  | n + 1, r, h => by
    obtain ⟨a, b, c, d, e⟩ := addMany_spec n r.addOne (addOne_inv h)
    have hl : r.addOne.rngs.length = r.rngs.length + 1 := by simp [Rngs.addOne]
    have hp : r.rngs <+: r.addOne.rngs := List.prefix_append _ _
    rw [Rngs.addMany]
    refine ⟨a, hp.trans b, by rw [c, hl]; omega, by rw [d]; simp [Rngs.addOne]; omega, ?_⟩
    intro k h1 h2
    by_cases hk : k = r.rngs.length
    · subst hk
      have : r.addOne.rngs[r.rngs.length]? = some (r.seed + 1, r.rngs.length) := by
        simp [Rngs.addOne, h.1]
      obtain ⟨t, ht⟩ := b
      rw [← ht, List.getElem?_append_left (by rw [hl]; omega), this]
      simp
    · rw [e k (by omega) (by omega)]
      have hs : r.addOne.seed = r.seed + 1 := rfl
      rw [hl, hs]
      congr 2
      omega

theorem get_spec (r : Rngs) (h : r.Inv) (t : Int) (c : Nat) (ht : -1 ≤ t) :
    ∃ r' x, r.get t c = .ok (r', x) ∧ r'.Inv ∧ r.rngs <+: r'.rngs ∧ r'.rngs[(Rngs.which t).toNat]? = some x ∧
      (r'.seed = r.seed + (r'.rngs.length - r.rngs.length)) ∧
      ∀ k, r.rngs.length ≤ k → k < r'.rngs.length → r'.rngs[k]? = some (r.seed + (k - r.rngs.length) + 1, k) := by
  have hw : 0 ≤ Rngs.which t := by unfold Rngs.which; split <;> omega
  generalize hwt : Rngs.which t = w at hw
  obtain ⟨a, b, c', d, e⟩ := addMany_spec (w + 1 - r.rngs.length).toNat r h
  unfold Rngs.get
  simp only [hwt]
  rw [if_neg (by omega)]
  by_cases hg : w > (r.rngs.length : Int) - 1
  · have he : r.ensure w = r.addMany (w + 1 - r.rngs.length).toNat := by rw [Rngs.ensure, if_pos hg]
    rw [he]
    have hlt : w.toNat < (r.addMany (w + 1 - r.rngs.length).toNat).rngs.length := by rw [c']; omega
    refine ⟨_, _, by rw [rd_of_lt hlt]; rfl, a, b, List.getElem?_eq_getElem hlt, by rw [d, c']; omega, ?_⟩
    intro k h1 h2
    exact e k h1 (by rw [c'] at h2; omega)
  · have he : r.ensure w = r := by rw [Rngs.ensure, if_neg hg]
    rw [he]
    have hlt : w.toNat < r.rngs.length := by omega
    exact ⟨_, _, by rw [rd_of_lt hlt]; rfl, h, List.prefix_refl _, List.getElem?_eq_getElem hlt, by omega, by intro k h1 h2; omega⟩

theorem run_spec : ∀ (ops : List RngOp) (r : Rngs), r.Inv → (∀ t c, RngOp.get t c ∈ ops → -1 ≤ t) →
    ∃ r' out, rngRun ops r = .ok (r', out) ∧ r'.Inv ∧ r.rngs <+: r'.rngs ∧
      ∀ t x, (t, x) ∈ out → r'.rngs[(Rngs.which t).toNat]? = some x
  | [], r, h, _ => ⟨r, [], rfl, h, List.prefix_refl _, by simp⟩
  | .reseed n :: ops, r, h, ht => by
    obtain ⟨r', out, a, b, c, d⟩ := run_spec ops { r with seed := n } h (fun t c hm => ht t c (by simp [hm]))
    exact ⟨r', out, by rw [rngRun]; exact a, b, c, d⟩
  | .get t c :: ops, r, h, ht => by
    obtain ⟨r1, x, a1, b1, c1, d1, -, -⟩ := get_spec r h t c (ht t c (by simp))
    obtain ⟨r', out, a, b, c', d⟩ := run_spec ops r1 b1 (fun t c hm => ht t c (by simp [hm]))
    refine ⟨r', (t, x) :: out, by rw [rngRun, a1]; simp only [Res.bind_ok]; rw [a]; rfl, b, c1.trans c', ?_⟩
    intro t' x' hm
    rcases List.mem_cons.1 hm with h' | h'
    · injection h' with e1 e2
      subst e1 e2
      obtain ⟨s, hs⟩ := c'
      rw [← hs, List.getElem?_append_left (List.getElem?_eq_some_iff.1 d1).1]
      exact d1
    · exact d t' x' h'

/-- The start of the program, with a seed. -/
def Rngs.start (seed : Nat) : Rngs := { seed := seed }

theorem start_inv (seed : Nat) : (Rngs.start seed).Inv := ⟨rfl, by simp [Rngs.start]⟩

/-- **C29, identity**: in any run, with seeds set in between, from any threads, asking for the same number gives the same
generator, and asking for different numbers different generators (a generator is its seed and its identity). -/
theorem C29_same_and_different (seed : Nat) (ops : List RngOp) (ht : ∀ t c, RngOp.get t c ∈ ops → 0 ≤ t) :
    ∃ r out, rngRun ops (Rngs.start seed) = .ok (r, out) ∧
      ∀ t t' x x', (t, x) ∈ out → (t', x') ∈ out → (t = t' → x = x') ∧ (t ≠ t' → x.2 ≠ x'.2) := by
  obtain ⟨r, out, a, b, -, d⟩ := run_spec ops (Rngs.start seed) (start_inv seed) (fun t c h => by have := ht t c h; omega)
  refine ⟨r, out, a, ?_⟩
  have hout : ∀ (ops : List RngOp) (r r' : Rngs) out, rngRun ops r = .ok (r', out) → ∀ t x, (t, x) ∈ out → ∃ c, RngOp.get t c ∈ ops := by
    intro ops
    induction ops with
    | nil => intro r r' out h t x hm; simp [rngRun] at h; rw [h.2] at hm; simp at hm
    | cons o ops ih =>
      intro r r' out h t x hm
      cases o with
      | reseed n =>
        obtain ⟨c, hc⟩ := ih _ _ _ h t x hm
        exact ⟨c, by simp [hc]⟩
      | get t1 c1 =>
        rw [rngRun] at h
        obtain ⟨⟨r1, x1⟩, h1, h⟩ := Res.bind_eq_ok.1 h
        obtain ⟨⟨r2, o2⟩, h2, h⟩ := Res.bind_eq_ok.1 h
        injection h with h
        injection h with e1 e2
        subst e2
        rcases List.mem_cons.1 hm with h' | h'
        · injection h' with e1 e2
          exact ⟨c1, by simp [e1]⟩
        · obtain ⟨c, hc⟩ := ih _ _ _ h2 t x h'
          exact ⟨c, by simp [hc]⟩
  intro t t' x x' h1 h2
  have w1 := d t x h1
  have w2 := d t' x' h2
  obtain ⟨c1, m1⟩ := hout _ _ _ _ a t x h1
  obtain ⟨c2, m2⟩ := hout _ _ _ _ a t' x' h2
  have p1 := ht t c1 m1
  have p2 := ht t' c2 m2
  have e1 : Rngs.which t = t := by unfold Rngs.which; rw [if_neg (by omega)]
  have e2 : Rngs.which t' = t' := by unfold Rngs.which; rw [if_neg (by omega)]
  rw [e1] at w1; rw [e2] at w2
  constructor
  · rintro rfl
    rw [w1] at w2; exact Option.some.inj w2
  · intro hne heq
    have i1 := b.2 _ _ w1
    have i2 := b.2 _ _ w2
    omega

/-- **C29, seeds**: if nobody else touches the seed, generator `k` is made with seed `seed + k + 1`, whoever asks and in
whatever order. -/
theorem C29_seeds (seed : Nat) (calls : List (Int × Nat)) (ht : ∀ x ∈ calls, 0 ≤ x.1) :
    ∃ r, rngRun (calls.map (fun x => .get x.1 x.2)) (Rngs.start seed) =
      .ok (r, calls.map (fun x => (x.1, (seed + x.1.toNat + 1, x.1.toNat)))) := by
  have key : ∀ (calls : List (Int × Nat)) (r : Rngs), (∀ x ∈ calls, 0 ≤ x.1) → r.Inv → r.seed = seed + r.rngs.length →
      (∀ k : Nat, k < r.rngs.length → r.rngs[k]? = some (seed + k + 1, k)) →
      ∃ r', rngRun (calls.map (fun x => .get x.1 x.2)) r = .ok (r', calls.map (fun x => (x.1, (seed + x.1.toNat + 1, x.1.toNat)))) := by
    intro calls
    induction calls with
    | nil => intro r _ _ _ _; exact ⟨r, rfl⟩
    | cons y calls ih =>
      intro r ht hi hs hk
      obtain ⟨t, c⟩ := y
      have ht0 : 0 ≤ t := ht (t, c) (by simp)
      obtain ⟨r1, x, a, b, p, d, e, f⟩ := get_spec r hi t c (by omega)
      have hw : Rngs.which t = t := by unfold Rngs.which; rw [if_neg (by omega)]
      rw [hw] at d
      have hle : r.rngs.length ≤ r1.rngs.length := p.length_le
      have hk1 : ∀ k : Nat, k < r1.rngs.length → r1.rngs[k]? = some (seed + k + 1, k) := by
        intro k hk'
        by_cases hl : k < r.rngs.length
        · obtain ⟨u, hu⟩ := p
          rw [← hu, List.getElem?_append_left hl, hk k hl]
        · rw [f k (by omega) hk', hs]
          congr 2; omega
      obtain ⟨r', h⟩ := ih r1 (fun x hx => ht x (by simp [hx])) b (by rw [e, hs]; omega) hk1
      refine ⟨r', ?_⟩
      have hx : x = (seed + t.toNat + 1, t.toNat) := by
        have := hk1 t.toNat (List.getElem?_eq_some_iff.1 d).1
        rw [d] at this; exact Option.some.inj this
      rw [List.map_cons, rngRun, a]
      simp only [Res.bind_ok]
      rw [h, hx]
      rfl
  exact key calls (Rngs.start seed) ht (start_inv seed) rfl (by simp [Rngs.start])

/-- `-1` does not give each thread its own generator: for every state and any two threads it is the same one. -/
theorem C29_minus_one_refuted (r : Rngs) (h : r.Inv) (c1 c2 : Nat) :
    ∃ r1 r2 x, r.get (-1) c1 = .ok (r1, x) ∧ r1.get (-1) c2 = .ok (r2, x) := by
  obtain ⟨r1, x, a, b, p, d, -⟩ := get_spec r h (-1) c1 (by omega)
  obtain ⟨r2, y, a', b', p', d', -⟩ := get_spec r1 b (-1) c2 (by omega)
  refine ⟨r1, r2, x, a, ?_⟩
  obtain ⟨u, hu⟩ := p'
  rw [← hu, List.getElem?_append_left (List.getElem?_eq_some_iff.1 d).1, d] at d'
  rw [a', Option.some.inj d']

/-- A number below -1 is an access before the array. -/
theorem C29_negative_ub (r : Rngs) (t : Int) (c : Nat) (h : t < -1) : r.get t c = .ub := by
  unfold Rngs.get Rngs.which
  rw [if_neg (show ¬ t = -1 by omega)]
  simp only
  rw [if_pos (by omega)]

example : rngRun [.get 2 5, .get 0 1, .get 2 7] (Rngs.start 8) =
    .ok (⟨[(9, 0), (10, 1), (11, 2)], 11, 3⟩, [(2, (11, 2)), (0, (9, 0)), (2, (11, 2))]) := rfl
example : rngRun [.get (-1) 5, .get (-1) 6] (Rngs.start 8) = .ok (⟨[(9, 0)], 9, 1⟩, [(-1, (9, 0)), (-1, (9, 0))]) := rfl

/-! ### The last line is outside the critical section -/

/-- The array's block, as a counter of reallocations, and its length. -/
structure RngBlock where
  gen : Nat
  len : Nat

/-- Steps of threads: the critical section (apop_asst.m4.c:368-374), then on line 375 load the pointer `rngs`, then
read through it. -/
inductive RngEv where
  | critical (k : Nat)
  | load (t : Nat)
  | use (t : Nat)

/-- An interleaving; `held` records for each thread the block it loaded. Reading through a pointer to a block since
reallocated is undefined. -/
def rngSched : List RngEv → RngBlock → (Nat → Nat) → Res Unit
  | [], _, _ => .ok ()
  | .critical k :: es, b, held => rngSched es (if b.len ≤ k then ⟨b.gen + 1, k + 1⟩ else b) held
  | .load t :: es, b, held => rngSched es b (fun t' => if t' = t then b.gen else held t')
  | .use t :: es, b, held => if held t = b.gen then rngSched es b held else .ub

/-- Another thread's first request can move the array between the load and the read. -/
theorem C29_race_refuted :
    rngSched [.critical 0, .load 0, .critical 1, .use 0] ⟨0, 0⟩ (fun _ => 0) = .ub := rfl

/-- If the largest number has been asked for before, no interleaving of further requests, each loading the pointer before
using it, moves the array. -/
theorem C29_race_free (b : RngBlock) (es : List RngEv) (hk : ∀ k, .critical k ∈ es → k < b.len) (held : Nat → Nat)
    (hl : ∀ t pre post, es = pre ++ .use t :: post → .load t ∈ pre) : rngSched es b held = .ok () := by
  have key : ∀ (es : List RngEv) (held : Nat → Nat), (∀ k, .critical k ∈ es → k < b.len) →
      (∀ t, held t = b.gen ∨ ∀ pre post, es = pre ++ .use t :: post → .load t ∈ pre) → rngSched es b held = .ok () := by
    intro es
    induction es with
    | nil => intro _ _ _; rfl
    | cons e es ih =>
      intro held hk hh
      have hk' : ∀ k, .critical k ∈ es → k < b.len := fun k h => hk k (by simp [h])
      have hrest : ∀ t, e ≠ .load t → (∀ pre post, e :: es = pre ++ .use t :: post → .load t ∈ pre) →
          ∀ pre post, es = pre ++ .use t :: post → .load t ∈ pre := by
        intro t hne h pre post he
        have := h (e :: pre) post (by rw [he]; rfl)
        rcases List.mem_cons.1 this with h' | h'
        · exact absurd h'.symm hne
        · exact h'
      cases e with
      | critical k =>
        rw [rngSched, if_neg (by have := hk k (by simp); omega)]
        exact ih held hk' (fun t => (hh t).imp id (hrest t (by simp)))
      | load t =>
        rw [rngSched]
        refine ih _ hk' (fun t' => ?_)
        by_cases ht : t' = t
        · left; simp [ht]
        · simp only [ht, if_false]
          exact (hh t').imp id (hrest t' (by simpa using fun e => ht e.symm))
      | use t =>
        have : held t = b.gen := by
          rcases hh t with h | h
          · exact h
          · exact absurd (h [] es rfl) (by simp)
        rw [rngSched, if_pos this]
        exact ih held hk' (fun t => (hh t).imp id (hrest t (by simp)))
  exact key es held hk (fun t => Or.inr (hl t))

example : rngSched [.critical 0, .load 0, .critical 1, .use 0, .load 1, .use 1] ⟨4, 2⟩ (fun _ => 0) = .ok () := rfl

end Apop.Asst
