import Verif.Base.C
import Mathlib.Analysis.SpecialFunctions.Log.Basic
import Mathlib.Data.Real.Archimedean
import Mathlib.Algebra.Order.Floor.Semiring
import Mathlib.Tactic.Ring
import Mathlib.Tactic.Linarith

/-! # C70, C71: the Metropolis chain

The model's log likelihood and constraint, the proposals made and the uniforms drawn are arbitrary: the theorems hold for every stream of them. Exact arithmetic over the reals. -/

namespace Apop.Mcmc
open Real

/-- The model that is sampled: whether a parameter vector fails the constraint, and the log likelihood, `none` if it is infinite or NaN. -/
structure Target where
  fails : List ℝ → Bool
  ll : List ℝ → Option ℝ

/-- What the chain carries: the draw, `last_ll` (`none`: minus infinity), and the counts of all blocks together. -/
structure St where
  draw : List ℝ
  lastLl : Option ℝ
  accepts : ℕ
  rejects : ℕ
  fails : ℕ

/-- `apop_draw(draw->data + s->block_starts[block], ...)`, apop_mcmc.m4.c:107: the block's elements are overwritten. -/
def splice (draw : List ℝ) (start : ℕ) (new : List ℝ) : List ℝ := draw.take start ++ new ++ draw.drop (start + new.length)

/-- `ratio >= 0 || log(gsl_rng_uniform(rng)) < ratio`, apop_mcmc.m4.c:124, with `ratio` of line 123; after a `last_ll` of minus infinity the ratio is infinity; the log of a uniform of zero is minus infinity. -/
def Accepts (lastLl : Option ℝ) (ll u : ℝ) : Prop :=
  match lastLl with
  | none => True
  | some l => 0 ≤ ll - l ∨ u = 0 ∨ log u < ll - l

/-- The loop at `newdraw`, apop_mcmc.m4.c:105-121: of the proposals the generator makes, those that fail the constraint are counted and thrown away, as are those without a finite log likelihood. `none`: none of these proposals will do and the loop goes on. -/
def propose (t : Target) (draw : List ℝ) (start : ℕ) : List (List ℝ) → ℕ → Option (List ℝ × ℝ × ℕ)
  | [], _ => none
  | c :: cs, fails =>
    let d := splice draw start c
    if t.fails d then propose t draw start cs (fails + 1)
    else match t.ll d with
      | none => propose t draw start cs fails
      | some l => some (d, l, fails)

open Classical in
/-- The rest of `one_step`, apop_mcmc.m4.c:123-138. A rejected draw is put back from the clean copy. -/
noncomputable def decide' (s : St) (u : ℝ) (p : List ℝ × ℝ × ℕ) : St :=
  if Accepts s.lastLl p.2.1 u then { draw := p.1, lastLl := some p.2.1, accepts := s.accepts + 1, rejects := s.rejects, fails := p.2.2 }
  else { s with rejects := s.rejects + 1, fails := p.2.2 }

/-- What chance brings to a step: the proposals and the uniform. -/
structure Chance where
  props : List (List ℝ)
  u : ℝ

/-- `one_step` but for the record, apop_mcmc.m4.c:103-138. -/
noncomputable def oneStep (t : Target) (start : ℕ) (s : St) (c : Chance) : Option St := (propose t s.draw start c.props s.fails).map (decide' s c.u)

/-- `if (out_row>=0) gsl_vector_memcpy(Apop_rv(out, out_row), draw)`, apop_mcmc.m4.c:139. `Apop_rv` past the last row is NULL. A row not yet written is `none`. -/
def record (out : List (Option (List ℝ))) (row : ℤ) (draw : List ℝ) : Res (List (Option (List ℝ))) :=
  if row < 0 then .ok out else wr out row.toNat (some draw)

/-- `main_mcmc_loop`, apop_mcmc.m4.c:200-213, from a given block and row on; one element of chance for each period. `starts` are the first `block_count` of the block starts. `none`: some step does not end. -/
noncomputable def loop (t : Target) (starts : List ℕ) : List Chance → ℕ → ℤ → St → List (Option (List ℝ)) → Option (Res (St × List (Option (List ℝ))))
  | [], _, _, s, out => some (.ok (s, out))
  | c :: cs, block, row, s, out =>
    match oneStep t (starts.getD block 0) s c with
    | none => none
    | some s' =>
      match record out row s'.draw with
      | .ub => some .ub
      | .ok out' => loop t starts cs ((block + 1) % starts.length) (row + 1) s' out'

/-- The rows thrown away: `out_row` starts at minus this, apop_mcmc.m4.c:202-204. -/
noncomputable def burnRows (periods : ℕ) (burnin : ℝ) : ℕ := ⌊(periods : ℝ) * burnin⌋₊

/-- The rows allocated, apop_mcmc.m4.c:294-296. -/
noncomputable def outRows (periods : ℕ) (burnin : ℝ) : ℕ := ⌊(periods : ℝ) * (1 - burnin)⌋₊

/-- `apop_model_metropolis`, apop_mcmc.m4.c:280-332, from the starting draw on, with a burn-in of at most one. -/
noncomputable def metropolis (t : Target) (starts : List ℕ) (burnin : ℝ) (draw0 : List ℝ) (cs : List Chance) : Option (Res (St × List (Option (List ℝ)))) :=
  loop t starts cs 0 (-(burnRows cs.length burnin : ℤ)) ⟨draw0, none, 0, 0, 0⟩ (List.replicate (outRows cs.length burnin) none)

/-! ## Specification -/

/-- `y` is `x` with `new` in place of the elements from `start` on. -/
def Replaced (start : ℕ) (new x y : List ℝ) : Prop :=
  y.length = x.length ∧ ∀ i : ℕ, y[i]? = if start ≤ i ∧ i < start + new.length then new[i - start]? else x[i]?

/-- The Metropolis rule: the uniform, as a share of the likelihood of the last state, is below the likelihood of the proposal. There is nothing to compare the first proposal with. -/
def Taken (last : Option ℝ) (l u : ℝ) : Prop := ∀ l0, last = some l0 → u * exp l0 < exp l

/-- A step of a Metropolis chain from `x`, with log likelihood `last`, to `y`: `y` differs from `x` in one block, meets the constraint and was accepted; or `y` is `x` and something was rejected. -/
inductive Move (t : Target) (start : ℕ) (c : Chance) (last : Option ℝ) (x y : List ℝ) : Prop where
  | accept (new : List ℝ) (l : ℝ) (hn : new ∈ c.props) (h : Replaced start new x y) (ok : t.fails y = false) (hl : t.ll y = some l) (ha : Taken last l c.u)
  | reject (new z : List ℝ) (l : ℝ) (hn : new ∈ c.props) (h : y = x) (hz : Replaced start new x z) (ok : t.fails z = false) (hl : t.ll z = some l) (ha : ¬ Taken last l c.u)

/-- The generator gives numbers from zero up to but not one, and proposals that fit into parameters of `n` elements at their block's start. -/
def Fits (starts : List ℕ) (n : ℕ) : ℕ → List Chance → Prop
  | _, [] => True
  | b, c :: cs => (0 ≤ c.u ∧ c.u < 1) ∧ (∀ new ∈ c.props, starts.getD b 0 + new.length ≤ n) ∧ Fits starts n ((b + 1) % starts.length) cs

/-- The states of a chain, one for each period; the blocks take turns. -/
inductive IsChain (t : Target) (starts : List ℕ) : ℕ → Option ℝ → List ℝ → List Chance → List (List ℝ) → Prop where
  | nil (b last x) : IsChain t starts b last x [] []
  | cons (b last x y c cs ys) (h : Move t (starts.getD b 0) c last x y) (hr : IsChain t starts ((b + 1) % starts.length) (t.ll y) y cs ys) : IsChain t starts b last x (c :: cs) (y :: ys)

/-! ## Proofs -/

theorem splice_replaced {start : ℕ} {new x : List ℝ} (h : start + new.length ≤ x.length) : Replaced start new x (splice x start new) := by
  constructor
  · simp [splice]; omega
  · intro i
    unfold splice
    by_cases h1 : i < start
    · rw [if_neg (by omega), List.append_assoc, List.getElem?_append_left (by simp; omega), List.getElem?_take_of_lt h1]
    · by_cases h2 : i < start + new.length
      · rw [if_pos ⟨by omega, h2⟩, List.getElem?_append_left (by simp; omega), List.getElem?_append_right (by simp; omega)]
        congr 1
        simp; omega
      · rw [if_neg (by omega), List.getElem?_append_right (by simp; omega), List.getElem?_drop]
        congr 1
        simp; omega

theorem accepts_iff {last : Option ℝ} {l u : ℝ} (h0 : 0 ≤ u) (h1 : u < 1) : Accepts last l u ↔ Taken last l u := by
  cases last with
  | none => simp [Accepts, Taken]
  | some l0 =>
    have hp := exp_pos l0
    have e : exp l = exp (l - l0) * exp l0 := by rw [← exp_add]; congr 1; ring
    simp only [Accepts, Taken, Option.some.injEq, forall_eq']
    rw [e, mul_lt_mul_iff_left₀ hp]
    constructor
    · rintro (h | rfl | h)
      · exact h1.trans_le (one_le_exp h)
      · exact exp_pos _
      · rcases h0.lt_or_eq with h0 | rfl
        · exact (log_lt_iff_lt_exp h0).1 h
        · exact exp_pos _
    · intro h
      rcases h0.lt_or_eq with h0 | rfl
      · exact Or.inr (Or.inr ((log_lt_iff_lt_exp h0).2 h))
      · exact Or.inr (Or.inl rfl)

theorem propose_spec {t : Target} {draw : List ℝ} {start : ℕ} : ∀ {cs : List (List ℝ)} {f : ℕ} {d : List ℝ} {l : ℝ} {f' : ℕ},
    propose t draw start cs f = some (d, l, f') → t.fails d = false ∧ t.ll d = some l ∧ (∃ c ∈ cs, d = splice draw start c) ∧ f ≤ f'
  | [], _, _, _, _, h => by simp [propose] at h
  | c :: cs, f, d, l, f', h => by
    rw [propose] at h
    split at h
    · obtain ⟨h1, h2, ⟨c', h3, h4⟩, h5⟩ := propose_spec h
      exact ⟨h1, h2, ⟨c', List.mem_cons_of_mem _ h3, h4⟩, by omega⟩
    · rename_i hf
      split at h
      · obtain ⟨h1, h2, ⟨c', h3, h4⟩, h5⟩ := propose_spec h
        exact ⟨h1, h2, ⟨c', List.mem_cons_of_mem _ h3, h4⟩, h5⟩
      · rename_i l' hl
        simp only [Option.some.injEq, Prod.mk.injEq] at h
        obtain ⟨rfl, rfl, rfl⟩ := h
        exact ⟨by simpa using hf, hl, ⟨c, by simp, rfl⟩, le_refl _⟩

theorem oneStep_spec {t : Target} {start : ℕ} {s s' : St} {c : Chance} (h : oneStep t start s c = some s') :
    (∃ new ∈ c.props, ∃ l, t.fails (splice s.draw start new) = false ∧ t.ll (splice s.draw start new) = some l ∧
      ((Accepts s.lastLl l c.u ∧ s'.draw = splice s.draw start new ∧ s'.lastLl = some l ∧ s'.accepts = s.accepts + 1 ∧ s'.rejects = s.rejects) ∨
       (¬ Accepts s.lastLl l c.u ∧ s'.draw = s.draw ∧ s'.lastLl = s.lastLl ∧ s'.accepts = s.accepts ∧ s'.rejects = s.rejects + 1))) := by
  unfold oneStep at h
  rw [Option.map_eq_some_iff] at h
  obtain ⟨⟨d, l, f⟩, hp, hd⟩ := h
  obtain ⟨h1, h2, ⟨new, hn, rfl⟩, -⟩ := propose_spec hp
  refine ⟨new, hn, l, h1, h2, ?_⟩
  unfold decide' at hd
  simp only at hd
  split at hd
  · rename_i ha; subst hd; exact Or.inl ⟨ha, rfl, rfl, rfl, rfl⟩
  · rename_i ha; subst hd; exact Or.inr ⟨ha, rfl, rfl, rfl, rfl⟩

/-- The rows as the loop leaves them: the states from period `burn` on, in order. -/
theorem loop_spec {t : Target} {starts : List ℕ} : ∀ (cs : List Chance) (block : ℕ) (row : ℤ) (s : St) (out : List (Option (List ℝ))) (s' : St) (out' : List (Option (List ℝ))),
    (s.lastLl = none ∨ s.lastLl = t.ll s.draw) → Fits starts s.draw.length block cs →
    loop t starts cs block row s out = some (.ok (s', out')) →
    ∃ ys : List (List ℝ), ys.length = cs.length ∧
      IsChain t starts block s.lastLl s.draw cs ys ∧
      (∀ y ∈ ys, (s.lastLl = none ∨ s.lastLl = t.ll s.draw ∧ t.fails s.draw = false ∧ (t.ll s.draw).isSome = true) → t.fails y = false ∧ (t.ll y).isSome = true) ∧
      out'.length = out.length ∧
      (∀ k : ℕ, k < out.length → out'[k]? = if h : row ≤ (k : ℤ) ∧ (k : ℤ) < row + cs.length then (ys[((k : ℤ) - row).toNat]?).map some else out[k]?) ∧
      s'.accepts + s'.rejects = s.accepts + s.rejects + cs.length ∧
      s'.draw = (s.draw :: ys).getLast (by simp)
  | [], block, row, s, out, s', out', _, _, h => by
    simp only [loop, Option.some.injEq, Res.ok.injEq, Prod.mk.injEq] at h
    obtain ⟨rfl, rfl⟩ := h
    refine ⟨[], rfl, IsChain.nil _ _ _, by simp, rfl, ?_, by simp, rfl⟩
    intro k _
    rw [dif_neg (by simp)]
  | c :: cs, block, row, s, out, s', out', hll, hfit, h => by
    obtain ⟨⟨hu0, hu1⟩, hfit1, hfit2⟩ := hfit
    rw [loop] at h
    split at h
    · cases h
    · rename_i s1 hs1
      split at h
      · cases h
      · rename_i out1 hout1
        obtain ⟨new, hn, l, h1, h2, hcase⟩ := oneStep_spec hs1
        -- the state after the first step has its own log likelihood on record, unless everything was minus infinity
        have hll1 : s1.lastLl = t.ll s1.draw := by
          rcases hcase with ⟨ha, hd, hl, -, -⟩ | ⟨ha, hd, hl, -, -⟩
          · rw [hl, hd, h2]
          · rcases hll with h0 | h0
            · rw [h0] at ha; exact absurd trivial ha
            · rw [hl, hd, h0]
        have hrep := splice_replaced (hfit1 new hn)
        have hlen : s1.draw.length = s.draw.length := by
          rcases hcase with ⟨-, hd, -⟩ | ⟨-, hd, -⟩
          · rw [hd]; exact hrep.1
          · rw [hd]
        have hmove : Move t (starts.getD block 0) c s.lastLl s.draw s1.draw := by
          rcases hcase with ⟨ha, hd, hl, -, -⟩ | ⟨ha, hd, hl, -, -⟩
          · exact Move.accept new l hn (hd ▸ hrep) (by rw [hd]; exact h1) (by rw [hd]; exact h2) ((accepts_iff hu0 hu1).1 ha)
          · exact Move.reject new _ l hn hd hrep h1 h2 (mt (accepts_iff hu0 hu1).2 ha)
        have hok1 : (s.lastLl = none ∨ s.lastLl = t.ll s.draw ∧ t.fails s.draw = false ∧ (t.ll s.draw).isSome = true) → t.fails s1.draw = false ∧ (t.ll s1.draw).isSome = true := by
          intro hq
          rcases hcase with ⟨ha, hd, hl, -, -⟩ | ⟨ha, hd, hl, -, -⟩
          · rw [hd, h2]; exact ⟨h1, rfl⟩
          · rcases hq with h0 | h0
            · rw [h0] at ha; exact absurd trivial ha
            · rw [hd]; exact h0.2
        have hcnt : s1.accepts + s1.rejects = s.accepts + s.rejects + 1 := by
          rcases hcase with ⟨-, -, -, ha, hr⟩ | ⟨-, -, -, ha, hr⟩ <;> omega
        obtain ⟨ys, hy1, hy2, hy3, hy4, hy5, hy6, hy7⟩ := loop_spec cs _ _ s1 out1 s' out' (Or.inr hll1) (hlen ▸ hfit2) h
        have hlen1 : out1.length = out.length := by
          unfold record at hout1
          split at hout1
          · cases hout1; rfl
          · unfold wr at hout1
            split at hout1
            · cases hout1; simp
            · cases hout1
        refine ⟨s1.draw :: ys, by simp [hy1], IsChain.cons _ _ _ _ _ _ _ hmove (hll1 ▸ hy2), ?_, by rw [hy4, hlen1], ?_, ?_, ?_⟩
        · intro y hy hq
          have := hok1 hq
          rcases List.mem_cons.1 hy with rfl | hy
          · exact this
          · exact hy3 y hy (Or.inr ⟨hll1, this⟩)
        · intro k hk
          rw [hy5 k (by omega)]
          by_cases hin : row + 1 ≤ (k : ℤ) ∧ (k : ℤ) < row + 1 + cs.length
          · rw [dif_pos hin, dif_pos (by simp only [List.length_cons]; push_cast; omega)]
            rw [show ((k : ℤ) - row).toNat = ((k : ℤ) - (row + 1)).toNat + 1 by omega, List.getElem?_cons_succ]
          · rw [dif_neg hin]
            by_cases hrow : row = (k : ℤ)
            · rw [dif_pos (by simp only [List.length_cons]; push_cast; omega)]
              rw [show ((k : ℤ) - row).toNat = 0 by omega]
              unfold record at hout1
              rw [if_neg (by omega)] at hout1
              rw [show row.toNat = k by omega, wr_of_lt hk] at hout1
              cases hout1
              rw [List.getElem?_set_self hk]
              rfl
            · rw [dif_neg (by simp only [List.length_cons]; push_cast; omega)]
              unfold record at hout1
              split at hout1
              · cases hout1; rfl
              · unfold wr at hout1
                split at hout1
                · cases hout1
                  rw [List.getElem?_set_ne (by omega)]
                · cases hout1
        · rw [hy6, hcnt]; simp only [List.length_cons]; omega
        · rw [hy7]; simp

/-- **C70 (the draws).** For every model, every stream of proposals and uniforms and every number of blocks: if the run ends, there is a sequence of states, one for each period, each of which meets the constraint and has a finite log likelihood and comes
from the one before by a Metropolis step in its block: the proposal is taken if u times the old likelihood is below the new one, and otherwise the last state is repeated; the first proposal is always taken.
Each step is counted as accepted or as rejected. Row `k` of the output is the state of period `burn + k`. -/
theorem C70_chain (t : Target) (starts : List ℕ) (burnin : ℝ) (draw0 : List ℝ) (cs : List Chance) (hfit : Fits starts draw0.length 0 cs) (s : St) (out : List (Option (List ℝ)))
    (h : metropolis t starts burnin draw0 cs = some (.ok (s, out))) :
    ∃ ys : List (List ℝ), ys.length = cs.length ∧
      IsChain t starts 0 none draw0 cs ys ∧
      (∀ y ∈ ys, t.fails y = false ∧ (t.ll y).isSome = true) ∧
      (∀ k < out.length, burnRows cs.length burnin + k < cs.length → out[k]? = (ys[burnRows cs.length burnin + k]?).map some) ∧
      s.accepts + s.rejects = cs.length ∧ (ys ≠ [] → ys.getLast? = some s.draw) := by
  unfold metropolis at h
  obtain ⟨ys, h1, h2, h3, h4, h5, h6, h7⟩ := loop_spec cs _ _ _ _ _ _ (Or.inl rfl) hfit h
  refine ⟨ys, h1, h2, fun y hy => h3 y hy (Or.inl rfl), ?_, by simpa using h6, ?_⟩
  · intro k hk hb
    rw [h5 k (by rw [← h4]; exact hk), dif_pos (by omega)]
    rw [show ((k : ℤ) - -(burnRows cs.length burnin : ℤ)).toNat = burnRows cs.length burnin + k by omega]
  · intro hne
    rw [h7, List.getLast?_eq_some_getLast hne]
    simp [List.getLast_cons hne]

theorem oneStep_first {t : Target} {start : ℕ} {s : St} {c : Chance} {new : List ℝ} {l : ℝ} (hp : c.props = [new]) (h1 : t.fails (splice s.draw start new) = false)
    (h2 : t.ll (splice s.draw start new) = some l) : oneStep t start s c = some (decide' s c.u (splice s.draw start new, l, s.fails)) := by
  simp [oneStep, hp, propose, h1, h2]

/-! ### The number of rows -/

theorem rows_le (P : ℕ) (b : ℝ) (h0 : 0 ≤ b) (h1 : b ≤ 1) : burnRows P b + outRows P b ≤ P := by
  have hP : (0 : ℝ) ≤ P := Nat.cast_nonneg P
  have ha := Nat.floor_le (mul_nonneg hP h0)
  have hb := Nat.floor_le (mul_nonneg hP (sub_nonneg.2 h1))
  have : ((burnRows P b + outRows P b : ℕ) : ℝ) ≤ P := by
    unfold burnRows outRows; push_cast; nlinarith
  exact_mod_cast this

/-- The rows are as many as the periods kept exactly if the burn-in is a whole number of periods. -/
theorem rows_eq_iff (P : ℕ) (b : ℝ) (h0 : 0 ≤ b) (h1 : b ≤ 1) : burnRows P b + outRows P b = P ↔ ∃ k : ℕ, (P : ℝ) * b = k := by
  have hP : (0 : ℝ) ≤ P := Nat.cast_nonneg P
  have ha := Nat.floor_le (mul_nonneg hP h0)
  have hb := Nat.floor_le (mul_nonneg hP (sub_nonneg.2 h1))
  constructor
  · intro h
    refine ⟨burnRows P b, ?_⟩
    have hc : ((burnRows P b : ℕ) : ℝ) + (outRows P b : ℕ) = P := by exact_mod_cast h
    unfold burnRows outRows at *
    nlinarith
  · rintro ⟨k, hk⟩
    have hkP : k ≤ P := by
      have : (k : ℝ) ≤ P := by rw [← hk]; nlinarith
      exact_mod_cast this
    have e1 : burnRows P b = k := by unfold burnRows; rw [hk, Nat.floor_natCast]
    have e2 : outRows P b = P - k := by
      unfold outRows
      rw [mul_sub, mul_one, hk, ← Nat.cast_sub hkP, Nat.floor_natCast]
    omega

theorem loop_record {t : Target} {starts : List ℕ} : ∀ (cs : List Chance) (block : ℕ) (row : ℤ) (s : St) (out : List (Option (List ℝ))),
    row + cs.length ≤ out.length → loop t starts cs block row s out ≠ some .ub
  | [], _, _, _, _, _ => by simp [loop]
  | c :: cs, block, row, s, out, h => by
    simp only [List.length_cons] at h
    push_cast at h
    rw [loop]
    split
    · simp
    · rename_i s1 hs1
      by_cases hneg : row < 0
      · simp only [record, hneg, if_true]
        exact loop_record cs _ _ _ _ (by omega)
      · have hlt : row.toNat < out.length := by omega
        simp only [record, hneg, if_false, wr_of_lt hlt]
        exact loop_record cs _ _ _ _ (by rw [List.length_set]; omega)

/-- **C71 (rows).** With a burn-in that is a whole number of periods, no run writes outside the output, and when it ends each row of it has been written. -/
theorem C71_rows (t : Target) (starts : List ℕ) (burnin : ℝ) (h0 : 0 ≤ burnin) (h1 : burnin ≤ 1) (draw0 : List ℝ) (cs : List Chance) (hfit : Fits starts draw0.length 0 cs) (hk : ∃ k : ℕ, (cs.length : ℝ) * burnin = k) :
    metropolis t starts burnin draw0 cs ≠ some .ub ∧
    ∀ s out, metropolis t starts burnin draw0 cs = some (.ok (s, out)) → out.length = cs.length - burnRows cs.length burnin ∧ ∀ r ∈ out, r ≠ none := by
  have he := (rows_eq_iff cs.length burnin h0 h1).2 hk
  constructor
  · exact loop_record cs _ _ _ _ (by simp; omega)
  · intro s out h
    obtain ⟨ys, hy1, -, -, hy4, -, -⟩ := C70_chain t starts burnin draw0 cs hfit s out h
    unfold metropolis at h
    obtain ⟨_, -, -, -, hlen, -⟩ := loop_spec cs _ _ _ _ _ _ (Or.inl rfl) hfit h
    rw [List.length_replicate] at hlen
    refine ⟨by omega, ?_⟩
    intro r hr hnone
    obtain ⟨k, hk⟩ := List.mem_iff_getElem?.1 hr
    have hkl : k < out.length := by rw [List.getElem?_eq_some_iff] at hk; exact hk.1
    rw [hy4 k hkl (by omega), List.getElem?_eq_getElem (by omega)] at hk
    simp at hk
    rw [← hk] at hnone
    cases hnone

theorem loop_over {t : Target} {starts : List ℕ} : ∀ (cs : List Chance) (block : ℕ) (row : ℤ) (s : St) (out : List (Option (List ℝ))),
    row ≤ out.length → (out.length : ℤ) < row + cs.length → ∀ r, loop t starts cs block row s out = some r → r = .ub
  | [], _, _, _, _, _, h2, _, _ => by simp at h2; omega
  | c :: cs, block, row, s, out, h1, h2, r, h => by
    simp only [List.length_cons] at h2
    push_cast at h2
    rw [loop] at h
    split at h
    · cases h
    · rename_i s1 hs1
      by_cases hneg : row < 0
      · simp only [record, hneg, if_true] at h
        exact loop_over cs _ _ _ _ (by omega) (by omega) r h
      · by_cases hlt : row.toNat < out.length
        · simp only [record, hneg, if_false, wr_of_lt hlt] at h
          exact loop_over cs _ _ _ _ (by rw [List.length_set]; omega) (by rw [List.length_set]; omega) r h
        · have : record out row s1.draw = .ub := by simp [record, hneg, wr, hlt]
          rw [this] at h
          simpa using h.symm

/-- With any other burn-in, one more row is written than there is: the last step of every run that gets there copies to NULL. Periods of 10 with the default burn-in of 0.05 do. -/
theorem C71_overrun (t : Target) (starts : List ℕ) (burnin : ℝ) (h0 : 0 ≤ burnin) (h1 : burnin ≤ 1) (draw0 : List ℝ) (cs : List Chance) (hk : ¬ ∃ k : ℕ, (cs.length : ℝ) * burnin = k) :
    ∀ r, metropolis t starts burnin draw0 cs = some r → r = .ub := by
  have hne : burnRows cs.length burnin + outRows cs.length burnin ≠ cs.length := fun h => hk ((rows_eq_iff cs.length burnin h0 h1).1 h)
  have hle := rows_le cs.length burnin h0 h1
  exact loop_over cs _ _ _ _ (by rw [List.length_replicate]; omega) (by rw [List.length_replicate]; omega)

theorem C71_default_ten : ¬ ∃ k : ℕ, (10 : ℝ) * (5 / 100) = k := by
  rintro ⟨k, hk⟩
  have h2 : ((2 * k : ℕ) : ℝ) = (1 : ℕ) := by push_cast; linarith
  have : 2 * k = 1 := by exact_mod_cast h2
  omega

/-- A run that ends: one block, two periods, no burn-in; the second proposal is rejected. -/
example : let t : Target := ⟨fun _ => false, fun x => some (-(x.getD 0 0))⟩
    metropolis t [0] 0 [1] [⟨[[0]], 1 / 2⟩, ⟨[[5]], 1 / 2⟩] = some (.ok (⟨[0], some (-0), 1, 1, 0⟩, [some [0], some [0]])) := by
  intro t
  have hu : ¬ log (1 / 2) < -5 := by
    have : (1 / 2 : ℝ) = 2⁻¹ := by norm_num
    rw [this, log_inv]
    have : log 2 ≤ 2 - 1 := log_le_sub_one_of_pos (by norm_num)
    linarith
  have hna : ¬ Accepts (some (-0)) (-5) (1 / 2) := by
    simp only [Accepts, not_or]
    refine ⟨by norm_num, by norm_num, ?_⟩
    simpa using hu
  have s1 : oneStep t 0 ⟨[1], none, 0, 0, 0⟩ ⟨[[0]], 1 / 2⟩ = some ⟨[0], some (-0), 1, 0, 0⟩ := by
    rw [oneStep_first (new := [0]) (l := -0) rfl rfl rfl]
    simp [decide', Accepts, splice]
  have s2 : oneStep t 0 ⟨[0], some (-0), 1, 0, 0⟩ ⟨[[5]], 1 / 2⟩ = some ⟨[0], some (-0), 1, 1, 0⟩ := by
    rw [oneStep_first (new := [5]) (l := -5) rfl rfl rfl]
    simp only [decide', hna, if_false]
  have e1 : burnRows 2 0 = 0 := by simp [burnRows]
  have e2 : outRows 2 0 = 2 := by
    have : ((2 : ℕ) : ℝ) * (1 - 0) = ((2 : ℕ) : ℝ) := by norm_num
    simp only [outRows, this, Nat.floor_natCast]
  unfold metropolis
  simp only [List.length_cons, List.length_nil, Nat.zero_add, Nat.reduceAdd, e1, e2]
  simp only [loop, List.getD_cons_zero, s1]
  simp only [neg_zero, one_div] at s2
  simp [record, wr, List.replicate, s2]

/-- Its chance fits: the theorems apply to it. -/
example : Fits [0] 1 0 [⟨[[0]], 1 / 2⟩, ⟨[[5]], 1 / 2⟩] := by simp [Fits]; norm_num

end Apop.Mcmc
