import Verif.Base.C
import Mathlib.Data.Real.Basic
import Mathlib.Data.List.Basic
import Mathlib.Algebra.BigOperators.Group.List.Basic
import Mathlib.Tactic.Ring
import Mathlib.Tactic.NormNum

/-! # C82: cross products of models -/

namespace Apop.Cross

/-- The `more` pointers of the pages in memory; `NULL` is `none`. -/
abbrev Heap := Nat → Option Nat

/-- The parts of the pages that nothing here writes: title and matrix width (`none`: no title, no matrix). -/
structure Env where
  title : Nat → Option CStr
  cols : Nat → Option Nat

/-- A cross product of cross products: `L` is what is at the leaves (any other models). Each model knows its `dsize`, and a leaf its `msize2`. -/
inductive CM (L : Type) where
  | leaf (msize2 : Nat) (dsize : Int) (l : L)
  | cross (split : Option CStr) (dsize : Int) (m1 m2 : CM L)

/-- `model->dsize`. -/
def CM.dsize {L : Type} : CM L → Int
  | .leaf _ d _ => d
  | .cross _ d _ _ => d

/-- `model->msize2`; the cross model itself leaves it at zero (transform/apop_cross.c:138-140). -/
def CM.msize2 {L : Type} : CM L → Nat
  | .leaf k _ _ => k
  | .cross .. => 0

/-! ## The models -/

/-- The test `names->title && !strcasecmp(title, splitpage)`, transform/apop_cross.c:67, 72. -/
def isSplit (e : Env) (s : CStr) (p : Nat) : Bool :=
  match e.title p with
  | none => false
  | some t => caseEq t s

/-- The loop of `get_second`, transform/apop_cross.c:72-73, from the page `c`: the last page before the split page, `none` if it has not ended in that many steps. -/
def seek (e : Env) (h : Heap) (s : CStr) : Nat → Nat → Option Nat
  | 0, _ => none
  | n + 1, c =>
    match h c with
    | none => some c
    | some q => if isSplit e s q then some c else seek e h s n q

/-- `twop_s`, transform/apop_cross.c:40-43, less the flag of the path not taken. -/
structure Two where
  d1 : Option Nat
  d2 : Option Nat
  dangly : Option Nat

/-- Is the matrix of the page wider than model 1 says? transform/apop_cross.c:64. -/
def wide (e : Env) (p msize2 : Nat) : Bool :=
  match e.cols p with
  | none => false
  | some w => decide (msize2 < w)

/-- `get_second`, transform/apop_cross.c:61-79. The data read as draws (`unpack_a_draw`, :51-61) is `ub` here: it is looked at by itself below. `d->matrix` of NULL data is `ub`. `n` bounds the steps of the loop. -/
def getSecond (e : Env) (n : Nat) (h : Heap) (d : Option Nat) (split : Option CStr) (msize2 : Nat) : Res (Two × Heap) :=
  match split with
  | none => .ok (⟨d, d, none⟩, h)
  | some s =>
    match d with
    | none => .ub
    | some p =>
      if wide e p msize2 then .ub
      else if isSplit e s p then .ok (⟨none, some p, none⟩, h)
      else
        match seek e h s n p with
        | none => .ub
        | some c => .ok (⟨some p, h c, some c⟩, Function.update h c none)

/-- `repaste`, transform/apop_cross.c:82-85. -/
def repaste (t : Two) (h : Heap) : Heap :=
  match t.dangly with
  | none => h
  | some c => Function.update h c t.d2

/-- The pages that a model given the pointer `d` can reach. -/
def pages (h : Heap) : Nat → Option Nat → List Nat
  | 0, _ => []
  | _ + 1, none => []
  | n + 1, some p => p :: pages h n (h p)

/-- The common shape of `cross_est`, `cross_ll` and `cross_p`, transform/apop_cross.c:101-128: find the two data sets, ask each model, put the data together again, and combine the answers. A leaf answers by what it can reach. -/
def ask {L β : Type} (e : Env) (n : Nat) (leafF : Nat → Int → L → List Nat → β) (comb : Option CStr → Int → β → β → β) : CM L → Heap → Option Nat → Res (β × Heap)
  | .leaf k ds l, h, d => .ok (leafF k ds l (pages h n d), h)
  | .cross s ds m1 m2, h, d =>
    (getSecond e n h d s m1.msize2).bind fun t =>
      (ask e n leafF comb m1 t.2 t.1.d1).bind fun a =>
        (ask e n leafF comb m2 a.2 t.1.d2).bind fun b =>
          .ok (comb s ds a.1 b.1, repaste t.1 b.2)

/-- What a leaf is: an answer to `apop_log_likelihood`, to `apop_p`, to `apop_estimate` (the estimated model), and to `apop_draw` (the numbers drawn and the generator afterwards). -/
structure Leaf (G : Type) where
  θ : List ℝ
  ll : List ℝ → List Nat → ℝ
  p : List ℝ → List Nat → ℝ
  est : List Nat → List ℝ → List ℝ
  draw : List ℝ → G → List ℝ × G

/-- `cross_ll`, transform/apop_cross.c:110-117. -/
noncomputable def crossLl {G : Type} (e : Env) (n : Nat) : CM (Leaf G) → Heap → Option Nat → Res (ℝ × Heap) :=
  ask e n (fun _ _ l ps => l.ll l.θ ps) fun _ _ a b => a + b

/-- `cross_p`, transform/apop_cross.c:119-125. -/
noncomputable def crossP {G : Type} (e : Env) (n : Nat) : CM (Leaf G) → Heap → Option Nat → Res (ℝ × Heap) :=
  ask e n (fun _ _ l ps => l.p l.θ ps) fun _ _ a b => a * b

/-- `cross_est`, transform/apop_cross.c:101-108: the two models are replaced by their estimates. -/
def crossEst {G : Type} (e : Env) (n : Nat) : CM (Leaf G) → Heap → Option Nat → Res (CM (Leaf G) × Heap) :=
  ask e n (fun k ds l ps => .leaf k ds { l with θ := l.est ps l.θ }) fun s ds a b => .cross s ds a b

/-- Write the numbers at the place in the buffer. -/
def put (buf : List ℝ) (off : Int) : List ℝ → Res (List ℝ)
  | [] => .ok buf
  | x :: xs => if 0 ≤ off then (wr buf off.toNat x).bind fun b => put b (off + 1) xs else .ub

/-- `cross_draw`, transform/apop_cross.c:130-137, into the buffer from `off` on. -/
def crossDraw {G : Type} : CM (Leaf G) → List ℝ → Int → G → Res (List ℝ × G)
  | .leaf _ _ l, buf, off, g => (put buf off (l.draw l.θ g).1).bind fun b => .ok (b, (l.draw l.θ g).2)
  | .cross _ _ m1 m2, buf, off, g =>
    (crossDraw m1 buf off g).bind fun r => crossDraw m2 r.1 (off + m1.dsize) r.2

/-- The `dsize` that `apop_model_cross_base` sets, transform/apop_cross.c:150; the static model has zero. -/
def sumSize (a b : Int) : Int := if 0 ≤ a ∧ 0 ≤ b then a + b else 0

/-- `apop_model_cross_base`, transform/apop_cross.c:142-152, on the NULL-terminated list of models. With no models the stop has no return and the next element is read past the end; with one, NULL is copied. -/
def crossBase {L : Type} : List (CM L) → Res (CM L)
  | [] => .ub
  | [_] => .ub
  | [a, b] => .ok (.cross none (sumSize a.dsize b.dsize) a b)
  | a :: b :: c :: l => (crossBase (b :: c :: l)).bind fun m2 => .ok (.cross none (sumSize a.dsize m2.dsize) a m2)

/-! ## The specification -/

/-- The page list `l` hangs from the pointer. -/
def Hangs (h : Heap) : Option Nat → List Nat → Prop
  | d, [] => d = none
  | d, b :: l => d = some b ∧ Hangs h (h b) l

/-- Each leaf is asked about its own share of the pages: at a node with a split page, the first model has the pages before the first one of that title, the second has it and those after; at a node without, both have all. -/
def answer {L β : Type} (e : Env) (leafF : Nat → Int → L → List Nat → β) (comb : Option CStr → Int → β → β → β) : CM L → List Nat → β
  | .leaf k ds l, ps => leafF k ds l ps
  | .cross none ds m1 m2, ps => comb none ds (answer e leafF comb m1 ps) (answer e leafF comb m2 ps)
  | .cross (some s) ds m1 m2, ps =>
    comb (some s) ds (answer e leafF comb m1 (ps.takeWhile fun p => !isSplit e s p)) (answer e leafF comb m2 (ps.dropWhile fun p => !isSplit e s p))

/-- Where a node splits there is a first page, and its matrix is no wider than model 1 says. -/
def Fits {L : Type} (e : Env) : CM L → List Nat → Prop
  | .leaf .., _ => True
  | .cross none _ m1 m2, ps => Fits e m1 ps ∧ Fits e m2 ps
  | .cross (some s) _ m1 m2, ps =>
    (∃ p, ps.head? = some p ∧ ∀ w, e.cols p = some w → w ≤ m1.msize2) ∧
      Fits e m1 (ps.takeWhile fun p => !isSplit e s p) ∧ Fits e m2 (ps.dropWhile fun p => !isSplit e s p)

/-- The draws of the leaves, left to right, each from the generator as the one before left it. -/
def draws {G : Type} : CM (Leaf G) → G → List ℝ × G
  | .leaf _ _ l, g => l.draw l.θ g
  | .cross _ _ m1 m2, g => ((draws m1 g).1 ++ (draws m2 (draws m1 g).2).1, (draws m2 (draws m1 g).2).2)

/-- Each model's `dsize` is what its draws fill. -/
def Sized {G : Type} : CM (Leaf G) → Prop
  | .leaf _ ds l => 0 ≤ ds ∧ ∀ g, ((l.draw l.θ g).1.length : Int) = ds
  | .cross _ ds m1 m2 => Sized m1 ∧ Sized m2 ∧ ds = m1.dsize + m2.dsize

/-! ## Proofs -/

theorem pages_eq (h : Heap) (l : List Nat) : ∀ (d : Option Nat) (n : Nat), Hangs h d l → l.length < n → pages h n d = l := by
  induction l with
  | nil => rintro d (_ | n) hd hn; · simp at hn
           · rw [show d = none from hd]; rfl
  | cons b l ih =>
    rintro d (_ | n) hd hn
    · simp at hn
    · obtain ⟨rfl, h2⟩ := hd
      simp only [pages, ih _ n h2 (by simpa using hn)]

theorem hangs_frame (h : Heap) (c : Nat) (v : Option Nat) (l : List Nat) : ∀ d, Hangs h d l → c ∉ l → Hangs (Function.update h c v) d l := by
  induction l with
  | nil => intro d hd _; exact hd
  | cons b l ih =>
    intro d hd hc
    obtain ⟨rfl, h2⟩ := hd
    simp only [List.mem_cons, not_or] at hc
    refine ⟨rfl, ?_⟩
    rw [Function.update_of_ne (Ne.symm hc.1)]
    exact ih _ h2 hc.2

/-- The loop stops at the page before the first split page, and cutting there leaves the two parts. -/
theorem seek_spec (e : Env) (s : CStr) (l : List Nat) : ∀ (h : Heap) (a n : Nat), Hangs h (h a) l → (a :: l).Nodup → l.length < n →
    ∃ c, seek e h s n a = some c ∧ c ∈ a :: l ∧
      Hangs (Function.update h c none) (Function.update h c none a) (l.takeWhile fun p => !isSplit e s p) ∧
      Hangs (Function.update h c none) (h c) (l.dropWhile fun p => !isSplit e s p) := by
  induction l with
  | nil =>
    rintro h a (_ | n) hd hnd hn
    · simp at hn
    · have h0 : h a = none := hd
      refine ⟨a, by simp [seek, h0], by simp, ?_, ?_⟩
      · simp [Hangs]
      · simpa [Hangs] using h0
  | cons b l ih =>
    rintro h a (_ | n) hd hnd hn
    · simp at hn
    · obtain ⟨h1, h2⟩ := hd
      have hab : a ≠ b := by rintro rfl; simp at hnd
      by_cases hb : isSplit e s b = true
      · refine ⟨a, by simp [seek, h1, hb], by simp, ?_, ?_⟩
        · simp [hb, Hangs]
        · have hnd' := List.nodup_cons.1 hnd
          simp only [hb, List.dropWhile_cons, Bool.not_true, Bool.false_eq_true, if_false]
          exact hangs_frame h a none (b :: l) _ ⟨h1, h2⟩ hnd'.1
      · obtain ⟨c, g1, g2, g3, g4⟩ := ih h b n h2 (List.nodup_cons.1 hnd).2 (by simpa using hn)
        have hac : a ≠ c := by rintro rfl; exact (List.nodup_cons.1 hnd).1 g2
        refine ⟨c, by simp [seek, h1, hb, g1], List.mem_cons_of_mem _ g2, ?_, ?_⟩
        · simp only [hb, List.takeWhile_cons, Bool.not_false]
          rw [Function.update_of_ne hac, h1]
          exact ⟨rfl, g3⟩
        · simpa only [hb, List.dropWhile_cons, Bool.not_false, if_true] using g4

theorem getSecond_spec (e : Env) (n : Nat) (h : Heap) (s : CStr) (d : Option Nat) (k : Nat) (l : List Nat) (hl : Hangs h d l) (hnd : l.Nodup) (hn : l.length < n)
    (hf : ∃ p, l.head? = some p ∧ ∀ w, e.cols p = some w → w ≤ k) :
    ∃ t h', getSecond e n h d (some s) k = .ok (t, h') ∧ Hangs h' t.d1 (l.takeWhile fun p => !isSplit e s p) ∧ Hangs h' t.d2 (l.dropWhile fun p => !isSplit e s p) ∧ repaste t h' = h := by
  cases l with
  | nil => simp at hf
  | cons p l =>
    obtain ⟨rfl, h2⟩ := hl
    obtain ⟨q, hq, hw⟩ := hf
    simp only [List.head?_cons, Option.some.injEq] at hq
    subst hq
    have hwide : wide e p k = false := by
      unfold wide
      cases hc : e.cols p with
      | none => rfl
      | some w => simpa using hw w hc
    by_cases hp : isSplit e s p = true
    · refine ⟨⟨none, some p, none⟩, h, by simp [getSecond, hwide, hp], ?_, ?_, rfl⟩
      · simp [hp, Hangs]
      · simp only [hp, List.dropWhile_cons, Bool.not_true, Bool.false_eq_true, if_false]
        exact ⟨rfl, h2⟩
    · obtain ⟨c, g1, g2, g3, g4⟩ := seek_spec e s l h p n h2 hnd (by simp at hn; omega)
      refine ⟨⟨some p, h c, some c⟩, Function.update h c none, by simp [getSecond, hwide, hp, g1], ?_, ?_, ?_⟩
      · simp only [hp, List.takeWhile_cons, Bool.not_false]
        exact ⟨rfl, g3⟩
      · simpa only [hp, List.dropWhile_cons, Bool.not_false, if_true] using g4
      · simp [repaste]

theorem ask_spec {L β : Type} (e : Env) (n : Nat) (leafF : Nat → Int → L → List Nat → β) (comb : Option CStr → Int → β → β → β) (m : CM L) :
    ∀ (h : Heap) (d : Option Nat) (l : List Nat), Hangs h d l → l.Nodup → l.length < n → Fits e m l → ask e n leafF comb m h d = .ok (answer e leafF comb m l, h) := by
  induction m with
  | leaf k ds x => intro h d l hl _ hn _; simp only [ask, answer, pages_eq h l d n hl hn]
  | cross s ds m1 m2 ih1 ih2 =>
    intro h d l hl hnd hn hf
    cases s with
    | none =>
      simp only [ask, getSecond, Res.bind, ih1 h d l hl hnd hn hf.1, ih2 h d l hl hnd hn hf.2, repaste, answer]
    | some s =>
      obtain ⟨hf0, hf1, hf2⟩ := hf
      obtain ⟨t, h', g1, g2, g3, g4⟩ := getSecond_spec e n h s d m1.msize2 l hl hnd hn hf0
      have ht := List.takeWhile_sublist (l := l) fun p => !isSplit e s p
      have hd := List.dropWhile_sublist (l := l) fun p => !isSplit e s p
      have e1 := ih1 h' t.d1 _ g2 (hnd.sublist ht) (lt_of_le_of_lt ht.length_le hn) hf1
      have e2 := ih2 h' t.d2 _ g3 (hnd.sublist hd) (lt_of_le_of_lt hd.length_le hn) hf2
      simp only [ask, g1, Res.bind, e1, e2, g4, answer]

/-- **C82 (log likelihood).** For any tree of cross products over any models, with any split pages: on data hanging from `d`, the log likelihood is the sum of the leaves' log likelihoods of their shares of the pages, and the data are afterwards as they were. -/
theorem C82_loglik {G : Type} (e : Env) (n : Nat) (m : CM (Leaf G)) (h : Heap) (d : Option Nat) (l : List Nat) (hl : Hangs h d l) (hnd : l.Nodup) (hn : l.length < n) (hf : Fits e m l) :
    crossLl e n m h d = .ok (answer e (fun _ _ x ps => x.ll x.θ ps) (fun _ _ a b => a + b) m l, h) :=
  ask_spec e n _ _ m h d l hl hnd hn hf

/-- **C82 (probability).** Likewise the probability is the product. -/
theorem C82_p {G : Type} (e : Env) (n : Nat) (m : CM (Leaf G)) (h : Heap) (d : Option Nat) (l : List Nat) (hl : Hangs h d l) (hnd : l.Nodup) (hn : l.length < n) (hf : Fits e m l) :
    crossP e n m h d = .ok (answer e (fun _ _ x ps => x.p x.θ ps) (fun _ _ a b => a * b) m l, h) :=
  ask_spec e n _ _ m h d l hl hnd hn hf

/-- **C82 (estimation).** Each leaf is estimated from its own share, the tree keeps its shape, and the data are as they were. -/
theorem C82_estimate {G : Type} (e : Env) (n : Nat) (m : CM (Leaf G)) (h : Heap) (d : Option Nat) (l : List Nat) (hl : Hangs h d l) (hnd : l.Nodup) (hn : l.length < n) (hf : Fits e m l) :
    crossEst e n m h d = .ok (answer e (fun k ds x ps => .leaf k ds { x with θ := x.est ps x.θ }) (fun s ds a b => .cross s ds a b) m l, h) :=
  ask_spec e n _ _ m h d l hl hnd hn hf

/-- **C82 (two models).** The common case spelt out: pages before the split page to the first model, it and the rest to the second. -/
theorem C82_two {G : Type} (e : Env) (n : Nat) (s : CStr) (k1 k2 : Nat) (d1 d2 d12 : Int) (a b : Leaf G) (h : Heap) (p : Nat) (before after : List Nat) (q : Nat)
    (hl : Hangs h (some p) (p :: before ++ q :: after)) (hnd : (p :: before ++ q :: after).Nodup) (hn : (p :: before ++ q :: after).length < n)
    (hw : ∀ w, e.cols p = some w → w ≤ k1) (hno : ∀ x ∈ p :: before, ∀ t, e.title x = some t → caseEq t s = false) (hq : ∃ t, e.title q = some t ∧ caseEq t s = true) :
    crossLl e n (.cross (some s) d12 (.leaf k1 d1 a) (.leaf k2 d2 b)) h (some p) = .ok (a.ll a.θ (p :: before) + b.ll b.θ (q :: after), h) := by
  have hno' : ∀ x ∈ p :: before, (!isSplit e s x) = true := by
    intro x hx
    unfold isSplit
    cases ht : e.title x with
    | none => rfl
    | some t => simp [hno x hx t ht]
  have hq' : ¬ (!isSplit e s q) = true := by
    obtain ⟨t, h1, h2⟩ := hq
    simp [isSplit, h1, h2]
  have t1 : (p :: before ++ q :: after).takeWhile (fun p => !isSplit e s p) = p :: before := by
    rw [List.takeWhile_append_of_pos hno', List.takeWhile_cons, if_neg hq', List.append_nil]
  have t2 : (p :: before ++ q :: after).dropWhile (fun p => !isSplit e s p) = q :: after := by
    rw [List.dropWhile_append_of_pos hno', List.dropWhile_cons, if_neg hq']
  have := C82_loglik e n (.cross (some s) d12 (.leaf k1 d1 a) (.leaf k2 d2 b)) h (some p) _ hl hnd hn ⟨⟨p, rfl, hw⟩, trivial, trivial⟩
  simpa only [answer, t1, t2] using this

theorem put_spec (xs : List ℝ) : ∀ (buf : List ℝ) (off : Nat), off + xs.length ≤ buf.length → put buf off xs = .ok (buf.take off ++ xs ++ buf.drop (off + xs.length)) := by
  induction xs with
  | nil => intro buf off h; simp [put]
  | cons x xs ih =>
    intro buf off h
    simp only [List.length_cons] at h
    have h1 : wr buf off x = .ok (buf.set off x) := wr_of_lt (by omega)
    have h2 := ih (buf.set off x) (off + 1) (by simp; omega)
    simp only [put, Int.natCast_nonneg, if_true, Int.toNat_natCast, h1, Res.bind]
    rw [show ((off : Int) + 1) = ((off + 1 : Nat) : Int) by push_cast; ring, h2]
    congr 1
    rw [List.drop_set_of_lt (by omega), List.take_add_one, List.take_set_of_le (by omega)]
    simp [List.getElem?_set, show off < buf.length by omega, Nat.add_comm, Nat.add_left_comm]

theorem draws_length {G : Type} (m : CM (Leaf G)) (hs : Sized m) : ∀ g, ((draws m g).1.length : Int) = m.dsize := by
  induction m with
  | leaf k ds x => intro g; exact hs.2 g
  | cross s ds m1 m2 ih1 ih2 =>
    intro g
    obtain ⟨h1, h2, h3⟩ := hs
    have a1 := ih1 h1 g
    have a2 := ih2 h2 (draws m1 g).2
    simp only [draws, List.length_append, CM.dsize]
    push_cast
    rw [a1, a2, h3]

/-- **C82 (draws).** A draw fills exactly `dsize` numbers of the buffer, from the given place on, with the draws of the leaves from left to right, and nothing else. -/
theorem C82_draw {G : Type} (m : CM (Leaf G)) (hs : Sized m) : ∀ (pre out post : List ℝ) (g : G), (out.length : Int) = m.dsize →
    crossDraw m (pre ++ out ++ post) pre.length g = .ok (pre ++ (draws m g).1 ++ post, (draws m g).2) := by
  induction m with
  | leaf k ds x =>
    intro pre out post g ho
    have hx : ((x.draw x.θ g).1.length : Int) = ds := hs.2 g
    have ho' : (x.draw x.θ g).1.length = out.length := by simp only [CM.dsize] at ho; omega
    rw [crossDraw, put_spec _ _ _ (by simp; omega)]
    simp only [Res.bind, draws, ho']
    simp
  | cross s ds m1 m2 ih1 ih2 =>
    intro pre out post g ho
    obtain ⟨h1, h2, h3⟩ := hs
    have l1 := draws_length m1 h1 g
    have l2 := draws_length m2 h2 (draws m1 g).2
    simp only [CM.dsize] at ho
    have hsplit : out = out.take (draws m1 g).1.length ++ out.drop (draws m1 g).1.length := (List.take_append_drop _ _).symm
    have hle : (draws m1 g).1.length ≤ out.length := by omega
    have e1 := ih1 h1 pre (out.take (draws m1 g).1.length) (out.drop (draws m1 g).1.length ++ post) g (by rw [List.length_take, Nat.min_eq_left hle]; exact l1)
    have e2 := ih2 h2 (pre ++ (draws m1 g).1) (out.drop (draws m1 g).1.length) post (draws m1 g).2 (by rw [List.length_drop]; omega)
    have ea : pre ++ out ++ post = pre ++ out.take (draws m1 g).1.length ++ (out.drop (draws m1 g).1.length ++ post) := by
      simp only [List.append_assoc, List.append_cancel_left_eq]
      rw [← List.append_assoc, List.take_append_drop]
    rw [crossDraw, ea, e1]
    simp only [Res.bind]
    rw [show ((pre.length : Int) + m1.dsize) = ((pre ++ (draws m1 g).1).length : Int) by rw [← l1]; simp]
    rw [← List.append_assoc, e2]
    simp [draws]

theorem sized_nonneg {G : Type} (m : CM (Leaf G)) (hs : Sized m) : 0 ≤ m.dsize := by
  induction m with
  | leaf k ds x => exact hs.1
  | cross s ds m1 m2 ih1 ih2 =>
    obtain ⟨h1, h2, h3⟩ := hs
    have a1 := ih1 h1
    have a2 := ih2 h2
    simp only [CM.dsize]
    omega

/-- **C82 (assembly).** Of two or more models of known sizes the list makes a model whose size is the sum, and whose draw is theirs in order; -/
theorem C82_assembly {G : Type} (ms : List (CM (Leaf G))) (h2 : 2 ≤ ms.length) (hs : ∀ m ∈ ms, Sized m) :
    ∃ out, crossBase ms = .ok out ∧ Sized out ∧ out.dsize = (ms.map CM.dsize).sum ∧
      ∀ g, (draws out g) = ms.foldl (fun acc m => (acc.1 ++ (draws m acc.2).1, (draws m acc.2).2)) ([], g) := by
  have foldapp : ∀ (ms : List (CM (Leaf G))) (pre : List ℝ) (g : G), ms.foldl (fun acc m => (acc.1 ++ (draws m acc.2).1, (draws m acc.2).2)) (pre, g) =
      (pre ++ (ms.foldl (fun acc m => (acc.1 ++ (draws m acc.2).1, (draws m acc.2).2)) ([], g)).1, (ms.foldl (fun acc m => (acc.1 ++ (draws m acc.2).1, (draws m acc.2).2)) ([], g)).2) := by
    intro ms
    induction ms with
    | nil => simp
    | cons m ms ih =>
      intro pre g
      simp only [List.foldl_cons, List.nil_append]
      rw [ih (pre ++ _), ih (draws m g).1]
      simp
  induction ms with
  | nil => simp at h2
  | cons a ms ih =>
    have ha := hs a (by simp)
    have na := sized_nonneg a ha
    match ms, ih, h2, hs with
    | [b], _, _, hs =>
      have hb := hs b (by simp)
      have nb := sized_nonneg b hb
      refine ⟨_, rfl, ⟨ha, hb, ?_⟩, ?_, ?_⟩
      · simp [sumSize, na, nb]
      · change sumSize a.dsize b.dsize = _
        simp [sumSize, na, nb]
      · intro g
        simp [draws]
    | b :: c :: l, ih, _, hs =>
      obtain ⟨m2, e1, e2, e3, e4⟩ := ih (by simp) (fun m hm => hs m (by simp at hm ⊢; tauto))
      have nb := sized_nonneg m2 e2
      refine ⟨.cross none (sumSize a.dsize m2.dsize) a m2, ?_, ⟨ha, e2, ?_⟩, ?_, ?_⟩
      · simp only [crossBase, e1, Res.bind]
      · simp [sumSize, na, nb]
      · have : (CM.cross none (sumSize a.dsize m2.dsize) a m2).dsize = a.dsize + m2.dsize := by
          change sumSize a.dsize m2.dsize = _
          simp [sumSize, na, nb]
        rw [this, e3]
        simp
      · intro g
        rw [List.foldl_cons, foldapp]
        simp only [draws, List.nil_append, e4]

/-- **Beside C82.** One model, which the message says is copied, is not: the code copies the NULL after it. -/
theorem C82_one_refuted {L : Type} (m : CM L) : crossBase [m] = .ub := rfl

/-- The subvector that `unpack_a_draw`, transform/apop_cross.c:58, takes of a row of `w` numbers for the second model: from `len1` on, as many as there are *rows*. -/
def secondPart (row : List ℝ) (len1 rows : Nat) : Res (List ℝ) :=
  if len1 + rows ≤ row.length then .ok ((row.drop len1).take rows) else .ub

/-- **Beside C82.** Data read as draws (rows of both models' numbers) give the second model its part of the row only if there are exactly as many rows as numbers in that part: with fewer rows it is cut short, with more the subvector leaves the row. -/
theorem C82_rows_refuted (r1 r2 : List ℝ) (rows : Nat) (hr : 0 < rows) :
    (secondPart (r1 ++ r2) r1.length rows = .ok r2 ↔ rows = r2.length) ∧ (r2.length < rows → secondPart (r1 ++ r2) r1.length rows = .ub) := by
  constructor
  · unfold secondPart
    by_cases h : r1.length + rows ≤ (r1 ++ r2).length
    · rw [if_pos h]
      simp only [List.length_append] at h
      simp only [List.drop_left, Res.ok.injEq]
      constructor
      · intro h'
        have := congrArg List.length h'
        rw [List.length_take] at this
        omega
      · rintro rfl
        simp
    · rw [if_neg h]
      simp only [List.length_append] at h
      simp
      omega
  · intro h
    unfold secondPart
    rw [if_neg (by simp; omega)]

/-- A split node whose first model is itself a cross product takes that path whenever the first page has a matrix at all. -/
theorem C82_nested_refuted {G : Type} (e : Env) (n : Nat) (s : CStr) (t : Option CStr) (d d' : Int) (a b c : CM (Leaf G)) (h : Heap) (p w : Nat) (hw : e.cols p = some (w + 1)) :
    crossLl e n (.cross (some s) d (.cross t d' a b) c) h (some p) = .ub := by
  simp [crossLl, ask, getSecond, wide, hw, CM.msize2, Res.bind]

/-- Three pages, the second titled "b"; the hypotheses of `C82_loglik` and its answer. -/
example : ∃ (e : Env) (h : Heap) (m : CM (Leaf Nat)), Hangs h (some 0) [0, 1, 2] ∧ Fits e m [0, 1, 2] ∧ crossLl e 9 m h (some 0) = .ok (1 + 20, h) := by
  let e : Env := ⟨fun p => if p = 1 then some [66] else none, fun _ => some 1⟩
  let h : Heap := fun p => if p = 0 then some 1 else if p = 1 then some 2 else none
  let lf : ℝ → Leaf Nat := fun c => ⟨[], fun _ ps => c * ps.length, fun _ _ => 0, fun _ x => x, fun _ g => ([], g)⟩
  have hh : Hangs h (some 0) [0, 1, 2] := by simp [Hangs, h]
  have hf : Fits e (.cross (some [98]) 0 (.leaf 1 0 (lf 1)) (.leaf 1 0 (lf 10))) [0, 1, 2] := by
    refine ⟨⟨0, rfl, ?_⟩, trivial, trivial⟩
    intro w hw
    simp only [e, Option.some.injEq] at hw
    simp [CM.msize2, ← hw]
  refine ⟨e, h, _, hh, hf, ?_⟩
  rw [C82_loglik e 9 _ h (some 0) _ hh (by decide) (by decide) hf]
  have i0 : isSplit e [98] 0 = false := by decide
  have i1 : isSplit e [98] 1 = true := by decide
  simp [answer, i0, i1, lf]
  norm_num

end Apop.Cross
