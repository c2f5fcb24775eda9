import Verif.Asst.Model

/-! # C27: memoised harmonic numbers -/

namespace Apop.Asst
variable {S α : Type}

/-- `1 + 1/2^s + ... + 1/N^s`, added up from the left. -/
def hsum (A : Arith S α) (s : S) (N : Nat) : α :=
  (List.range' 2 (N - 1)).foldl (fun acc n => A.add acc (A.term s n)) A.one

/-- Exponents that compare equal (such as 0 and -0) have the same terms. Nothing is assumed of exponents that do not
compare equal to themselves (NaN). -/
def EqOk (A : Arith S α) : Prop := ∀ a b, A.eq a b = true → ∀ n, A.term a n = A.term b n

theorem hsum_one (A : Arith S α) (s : S) : hsum A s 1 = A.one := rfl

theorem hsum_succ (A : Arith S α) (s : S) (N : Nat) (h : 0 < N) : hsum A s (N + 1) = A.add (hsum A s N) (A.term s (N + 1)) := by
  unfold hsum
  obtain ⟨m, rfl⟩ : ∃ m, N = m + 1 := ⟨N - 1, by omega⟩
  simp only [Nat.add_sub_cancel]
  rw [List.range'_concat, List.foldl_append]
  simp only [List.foldl_cons, List.foldl_nil]
  congr 2; omega

theorem hsum_congr (A : Arith S α) (h : EqOk A) {a b : S} (e : A.eq a b = true) (N : Nat) : hsum A a N = hsum A b N := by
  unfold hsum
  congr 1
  funext acc n
  rw [h a b e n]

/-- Every cell of the block holds the right sum. -/
structure Row.Ok (A : Arith S α) (r : Row S α) : Prop where
  pos : 1 ≤ r.len
  le : r.len ≤ r.block.length
  val : ∀ k : Nat, k < r.block.length → r.block[k]? = some (some (hsum A r.s (k + 1)))

theorem extend_eq (A : Arith S α) (s : S) : ∀ (n j : Nat) (b : List (Option α)), 0 < j → j + n = b.length →
    (∀ k : Nat, k < j → b[k]? = some (some (hsum A s (k + 1)))) →
    ∃ b', extend A s n j b = .ok b' ∧ b'.length = b.length ∧ ∀ k : Nat, k < b.length → b'[k]? = some (some (hsum A s (k + 1)))
  | 0, j, b, _, hl, h => ⟨b, rfl, rfl, fun k hk => h k (by omega)⟩
  | n + 1, j, b, hj, hl, h => by
    have hjl : j < b.length := by omega
    have hprev : rd b (j - 1) = .ok (some (hsum A s j)) := by
      rw [rd_eq_ok, h (j - 1) (by omega)]; congr 3; omega
    obtain ⟨b', a, c, d⟩ := extend_eq A s n (j + 1) (b.set j (some (A.add (hsum A s j) (A.term s (j + 1))))) (by omega) (by simp; omega)
      (by
        intro k hk
        by_cases hkj : k = j
        · subst hkj
          rw [List.getElem?_set_self hjl, ← hsum_succ A s k hj]
        · rw [List.getElem?_set_ne (by omega)]
          exact h k (by omega))
    refine ⟨b', ?_, by simpa using c, by simpa using d⟩
    rw [extend, if_neg (by omega), hprev]
    simp only [Res.bind_ok]
    rw [wr_of_lt hjl]
    exact a

theorem newRow_ok (A : Arith S α) (N : Nat) (s : S) (h : 0 < N) :
    ∃ r, newRow A N s = .ok r ∧ r.s = s ∧ r.len = N ∧ r.block.length = N ∧ r.Ok A := by
  have hw : wr (List.replicate N (none : Option α)) 0 (some A.one) = .ok ((List.replicate N none).set 0 (some A.one)) :=
    wr_of_lt (by simp; exact h)
  by_cases hN : N - 1 ≥ 1
  · have hres : resize ((List.replicate N (none : Option α)).set 0 (some A.one)) N = (List.replicate N none).set 0 (some A.one) := by
      simp [resize, List.take_of_length_le]
    obtain ⟨b, a, c, d⟩ := extend_eq A s (N - 1) 1 ((List.replicate N (none : Option α)).set 0 (some A.one)) (by omega) (by simp; omega)
      (by
        intro k hk
        have : k = 0 := by omega
        subst this
        rw [List.getElem?_set_self (by simp; exact h), hsum_one])
    simp only [List.length_set, List.length_replicate] at c d
    refine ⟨⟨s, N, b⟩, ?_, rfl, rfl, c, ⟨h, by simp [c], by intro k hk; exact d k (by simpa [c] using hk)⟩⟩
    rw [newRow, hw]
    simp only [Res.bind_ok]
    rw [if_pos hN, hres, a]; rfl
  · have hN1 : N = 1 := by omega
    subst hN1
    refine ⟨⟨s, 1, [some A.one]⟩, rfl, rfl, rfl, rfl, ⟨Nat.le_refl _, Nat.le_refl _, ?_⟩⟩
    intro k hk
    simp only [List.length_singleton] at hk
    have : k = 0 := by omega
    subst this
    rfl

theorem growRow_ok (A : Arith S α) (hA : EqOk A) (N : Nat) (s : S) (r : Row S α) (hr : r.Ok A) (he : A.eq r.s s = true) :
    ∃ r', growRow A N s r = .ok r' ∧ r'.s = r.s ∧ r'.len = r.len ∧ N ≤ r'.block.length ∧ r'.Ok A := by
  by_cases hN : N - 1 ≥ r.len
  · have hp := hr.pos
    have hlen : (resize r.block N).length = N := by
      simp only [resize, List.length_append, List.length_take, List.length_replicate]; omega
    obtain ⟨b, a, c, d⟩ := extend_eq A s (N - r.len) r.len (resize r.block N) hr.pos (by rw [hlen]; omega)
      (by
        intro k hk
        have hkb : k < r.block.length := Nat.lt_of_lt_of_le hk hr.le
        rw [resize, List.getElem?_append_left (by simp; omega), List.getElem?_take_of_lt (by omega), hr.val k hkb,
          hsum_congr A hA he])
    rw [hlen] at c d
    refine ⟨{ r with block := b }, by rw [growRow, if_pos hN, a]; rfl, rfl, rfl, by simp [c], ⟨hr.pos, by simp [c]; omega, ?_⟩⟩
    intro k hk
    simp only [c] at hk
    simp only
    rw [d k hk, hsum_congr A hA he]
  · refine ⟨r, by rw [growRow, if_neg hN], rfl, rfl, ?_, hr⟩
    have := hr.le
    omega

/-- The cache is right. -/
def CacheOk (A : Arith S α) (c : List (Row S α)) : Prop := ∀ r ∈ c, r.Ok A

theorem findRow_spec (A : Arith S α) (s : S) : ∀ (c : List (Row S α)),
    (findRow A s c < c.length → ∃ r, c[findRow A s c]? = some r ∧ A.eq r.s s = true) ∧ findRow A s c ≤ c.length
  | [] => by simp [findRow]
  | r :: c => by
    rw [findRow]
    by_cases h : A.eq r.s s = true
    · rw [if_pos h]; exact ⟨fun _ => ⟨r, rfl, h⟩, by simp⟩
    · rw [if_neg h]
      obtain ⟨a, b⟩ := findRow_spec A s c
      refine ⟨fun hl => ?_, by simp; omega⟩
      obtain ⟨r', h1, h2⟩ := a (by simp at hl; omega)
      exact ⟨r', by simpa using h1, h2⟩

/-- After the critical section the row `i` exists and its block has the right value for `N`. -/
theorem critical_ok (A : Arith S α) (hA : EqOk A) (c : List (Row S α)) (hc : CacheOk A c) (N : Nat) (hN : 0 < N) (s : S) :
    ∃ c' i, harmCritical A N s c = .ok (c', i) ∧ CacheOk A c' ∧ harmRead c' i N = .ok (hsum A s N) := by
  have hread : ∀ (c' : List (Row S α)) (i : Nat) (r : Row S α), c'[i]? = some r → r.Ok A → N ≤ r.block.length →
      hsum A r.s N = hsum A s N → harmRead c' i N = .ok (hsum A s N) := by
    intro c' i r h1 h2 h3 h4
    have hv := h2.val (N - 1) (by omega)
    rw [show N - 1 + 1 = N by omega, h4] at hv
    rw [harmRead, rd_eq_ok.2 h1]
    simp only [Res.bind_ok]
    rw [rd_eq_ok.2 hv]
    rfl
  unfold harmCritical
  simp only
  obtain ⟨f1, f2⟩ := findRow_spec A s c
  cases hx : c[findRow A s c]? with
  | none =>
    have hlen : findRow A s c = c.length := by
      have := List.getElem?_eq_none_iff.1 hx
      omega
    obtain ⟨r, a, b, l, d, e⟩ := newRow_ok A N s hN
    refine ⟨c ++ [r], findRow A s c, by simp only [a, Res.bind_ok], ?_, ?_⟩
    · intro r' hr'
      rcases List.mem_append.1 hr' with h | h
      · exact hc r' h
      · rw [List.mem_singleton.1 h]; exact e
    · exact hread _ _ r (by rw [hlen, List.getElem?_append_right (Nat.le_refl _)]; simp) e (by omega) (by rw [b])
  | some r =>
    have hlt : findRow A s c < c.length := (List.getElem?_eq_some_iff.1 hx).1
    obtain ⟨r', h1, h2⟩ := f1 hlt
    rw [hx] at h1
    obtain rfl := Option.some.inj h1
    have hr := hc r (List.mem_of_getElem? hx)
    obtain ⟨r', a, b, l, d, e⟩ := growRow_ok A hA N s r hr h2
    refine ⟨c.set (findRow A s c) r', findRow A s c, by simp only [a, Res.bind_ok, wr_of_lt hlt], ?_, ?_⟩
    · intro x hx'
      rcases List.mem_or_eq_of_mem_set hx' with h | rfl
      · exact hc x h
      · exact e
    · exact hread _ _ r' (List.getElem?_set_self hlt) e d (by rw [b]; exact hsum_congr A hA h2 N)

/-- A sequence of calls from the start of the program, with what they return. -/
def harmRun (A : Arith S α) : List (Int × S) → List (Row S α) → Res (List (Row S α) × List (Option α))
  | [], c => .ok (c, [])
  | (N, s) :: calls, c => do
    let (c, x) ← harmonic A c N s
    let (c, xs) ← harmRun A calls c
    .ok (c, x :: xs)

/-- **C27**: after any calls, each call gives NaN for `N <= 0` and else the sum of the first `N` terms; no cell of the cache
is read outside its block or before it was written. -/
theorem C27_history (A : Arith S α) (hA : EqOk A) (calls : List (Int × S)) :
    ∃ c, harmRun A calls [] = .ok (c, calls.map (fun x =>
      if x.1 ≤ 0 then none else some ((List.range' 2 (x.1.toNat - 1)).foldl (fun acc n => A.add acc (A.term x.2 n)) A.one))) := by
  have key : ∀ (calls : List (Int × S)) (c : List (Row S α)), CacheOk A c → ∃ c', harmRun A calls c = .ok (c', calls.map (fun x =>
      if x.1 ≤ 0 then none else some (hsum A x.2 x.1.toNat))) := by
    intro calls
    induction calls with
    | nil => intro c _; exact ⟨c, rfl⟩
    | cons x calls ih =>
      intro c hc
      obtain ⟨N, s⟩ := x
      by_cases hN : N ≤ 0
      · obtain ⟨c', h⟩ := ih c hc
        refine ⟨c', ?_⟩
        rw [harmRun, harmonic, if_pos hN]
        simp only [Res.bind_ok]
        rw [h]
        simp [hN]
      · obtain ⟨c1, i, h1, h2, h3⟩ := critical_ok A hA c hc N.toNat (by omega) s
        obtain ⟨c', h⟩ := ih c1 h2
        refine ⟨c', ?_⟩
        rw [harmRun, harmonic, if_neg hN, h1]
        simp only [Res.bind_ok]
        rw [h3]
        simp only [Res.bind_ok]
        rw [h]
        simp [hN]
  obtain ⟨c, h⟩ := key calls [] (by intro r hr; simp at hr)
  exact ⟨c, h⟩

/-! ### Threads -/

/-- What thread `t` does next: pass through the critical section, or read and return. -/
inductive Ev (S : Type) where
  | enter (t : Nat) (N : Nat) (s : S)
  | leave (t : Nat)

/-- An interleaving: the cache, the calls between their critical section and their last line (thread, i, N), the
values returned (thread, N, value), in order. -/
def harmSched (A : Arith S α) : List (Ev S) → List (Row S α) → List (Nat × Nat × Nat) → Res (List (Nat × Nat × α))
  | [], _, _ => .ok []
  | .enter t N s :: es, c, pend => do
    let (c, i) ← harmCritical A N s c
    harmSched A es c ((t, i, N) :: pend)
  | .leave t :: es, c, pend =>
    match pend.find? (fun x => x.1 == t) with
    | none => harmSched A es c pend
    | some (_, i, N) => do
      let x ← harmRead c i N
      let out ← harmSched A es c (pend.filter (fun x => x.1 != t))
      .ok ((t, N, x) :: out)

/-- Whole numbers for examples: terms are all 1. -/
def toy : Arith Unit Nat := ⟨fun _ _ => true, 1, fun _ _ => 1, (· + ·)⟩

/-- With two threads the last line, outside the critical section, can read past the block: thread 0 asks for 3 terms and is
interrupted after the critical section, thread 1 asks for 2 and shrinks the block. -/
theorem C27_threads_refuted :
    harmSched toy [.enter 0 1 (), .leave 0, .enter 0 3 (), .enter 1 2 (), .leave 0, .leave 1] [] [] = .ub := rfl

/-- **C27 with threads, in part**: if each sum asked for is no longer than the one that first filled its row, any
interleaving gives every call its value. -/
theorem C27_threads_short_sums (A : Arith S α) (hA : EqOk A) (c : List (Row S α)) (hc : CacheOk A c) (es : List (Ev S))
    (hes : ∀ t N s, Ev.enter t N s ∈ es → 0 < N ∧ ∃ r, c[findRow A s c]? = some r ∧ N ≤ r.len) :
    ∃ out, harmSched A es c [] = .ok out ∧ ∀ t N x, (t, N, x) ∈ out → ∃ s, Ev.enter t N s ∈ es ∧ x = hsum A s N := by
  have key : ∀ (es' : List (Ev S)) (pend : List (Nat × Nat × Nat)), (∀ e ∈ es', e ∈ es) →
      (∀ t i N, (t, i, N) ∈ pend → ∃ s, Ev.enter t N s ∈ es ∧ harmRead c i N = .ok (hsum A s N)) →
      ∃ out, harmSched A es' c pend = .ok out ∧ ∀ t N x, (t, N, x) ∈ out → ∃ s, Ev.enter t N s ∈ es ∧ x = hsum A s N := by
    intro es'
    induction es' with
    | nil => intro pend _ _; exact ⟨[], rfl, by simp⟩
    | cons e es' ih =>
      intro pend hsub hp
      cases e with
      | enter t N s =>
        obtain ⟨hN, r, hr, hle⟩ := hes t N s (hsub _ (by simp))
        obtain ⟨c', i, h1, -, h3⟩ := critical_ok A hA c hc N hN s
        have hsame : harmCritical A N s c = .ok (c, findRow A s c) := by
          unfold harmCritical
          simp only [hr]
          rw [growRow, if_neg (by omega)]
          simp only [Res.bind_ok]
          have hlt := (List.getElem?_eq_some_iff.1 hr).1
          rw [wr_of_lt hlt]
          simp only [Res.bind_ok]
          congr 2
          exact List.ext_getElem? fun k => by
            by_cases hk : findRow A s c = k
            · subst hk; rw [List.getElem?_set_self hlt, hr]
            · rw [List.getElem?_set_ne hk]
        rw [hsame] at h1
        injection h1 with h1
        injection h1 with e1 e2
        subst e1 e2
        obtain ⟨out, a, b⟩ := ih ((t, findRow A s c, N) :: pend) (fun e he => hsub e (by simp [he])) (by
          intro t' i' N' hm
          rcases List.mem_cons.1 hm with h | h
          · injection h with a1 a2
            injection a2 with a2 a3
            subst a1 a2 a3
            exact ⟨s, hsub _ (by simp), h3⟩
          · exact hp t' i' N' h)
        exact ⟨out, by rw [harmSched, hsame]; exact a, b⟩
      | leave t =>
        rw [harmSched]
        cases hf : pend.find? (fun x => x.1 == t) with
        | none =>
          simp only
          exact ih pend (fun e he => hsub e (by simp [he])) hp
        | some y =>
          obtain ⟨t', i, N⟩ := y
          have htt : t' = t := by simpa using List.find?_some hf
          subst htt
          obtain ⟨s, hs1, hs2⟩ := hp t' i N (List.mem_of_find?_eq_some hf)
          obtain ⟨out, a, b⟩ := ih (pend.filter (fun x => x.1 != t')) (fun e he => hsub e (by simp [he]))
            (fun t i N h => hp t i N (List.mem_filter.1 h).1)
          refine ⟨(t', N, hsum A s N) :: out, by simp only [hs2, Res.bind_ok]; rw [a]; rfl, ?_⟩
          intro t2 N2 x h
          rcases List.mem_cons.1 h with h | h
          · injection h with a1 a2
            injection a2 with a2 a3
            subst a1 a2 a3
            exact ⟨s, hs1, rfl⟩
          · exact b t2 N2 x h
  exact key es [] (fun _ h => h) (by simp)

example : harmRun toy [(3, ()), (0, ()), (5, ()), (4, ()), (2, ())] [] =
    .ok ([⟨(), 3, [some 1, some 2, some 3, some 4]⟩], [some 3, none, some 5, some 4, some 2]) := rfl
example : harmSched toy [.enter 0 3 (), .enter 1 2 (), .leave 1, .leave 0] [⟨(), 3, [some 1, some 2, some 3]⟩] [] = .ok [(1, 2, 2), (0, 3, 3)] := rfl

end Apop.Asst
