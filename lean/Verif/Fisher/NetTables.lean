import Verif.Fisher.NetDaughters
import Mathlib.Algebra.Order.Group.Abs

/-! # The stored past path lengths: putting, merging, popping -/

namespace Apop.Fisher
open Finset

/-- Frequency-weighted sum over past path lengths. -/
noncomputable def chainSum (ω : ℝ → ℝ) (ch : List (ℝ × ℕ)) : ℝ := (ch.map (fun e => (e.2 : ℝ) * ω e.1)).sum

/-- Frequency-weighted sum over nodes and past path lengths. -/
noncomputable def mass (ω : List ℕ → ℝ → ℝ) (ms : List (List ℕ × List (ℝ × ℕ))) : ℝ :=
  (ms.map (fun m => chainSum (ω m.1) m.2)).sum

/-- The same over a hash table. -/
noncomputable def massT (kyy : List ℕ) (ω : List ℕ → ℝ → ℝ) (tab : List (ℕ × Tree)) : ℝ :=
  mass ω (tab.map (fun kt => (decode kyy kt.1, kt.2.entries)))

theorem chainSum_cons (ω : ℝ → ℝ) (p : ℝ) (f : ℕ) (ch : List (ℝ × ℕ)) :
    chainSum ω ((p, f) :: ch) = (f : ℝ) * ω p + chainSum ω ch := by simp [chainSum]

theorem chainSum_append (ω : ℝ → ℝ) (a b : List (ℝ × ℕ)) : chainSum ω (a ++ b) = chainSum ω a + chainSum ω b := by
  simp [chainSum]

theorem chainSum_perm (ω : ℝ → ℝ) {a b : List (ℝ × ℕ)} (h : List.Perm a b) : chainSum ω a = chainSum ω b :=
  (h.map _).sum_eq

theorem mass_perm (ω : List ℕ → ℝ → ℝ) {a b : List (List ℕ × List (ℝ × ℕ))} (h : List.Perm a b) : mass ω a = mass ω b :=
  (h.map _).sum_eq

theorem massT_cons (kyy : List ℕ) (ω : List ℕ → ℝ → ℝ) (k : ℕ) (t : Tree) (tab : List (ℕ × Tree)) :
    massT kyy ω ((k, t) :: tab) = chainSum (ω (decode kyy k)) t.entries + massT kyy ω tab := by
  simp [massT, mass]

theorem massT_append (kyy : List ℕ) (ω : List ℕ → ℝ → ℝ) (a b : List (ℕ × Tree)) :
    massT kyy ω (a ++ b) = massT kyy ω a + massT kyy ω b := by
  simp [massT, mass]

/-- The orders in which nodes and path lengths are visited leave none out. -/
def Orders (P : Par) : Prop := (∀ ch, List.Perm (P.ord ch) ch) ∧ ∀ tab, List.Perm (P.pop tab) tab

theorem mass_mothers {P : Par} (h : Orders P) (ω : List ℕ → ℝ → ℝ) (tab : List (ℕ × Tree)) :
    mass ω (mothers P tab) = massT P.kyy ω tab := by
  unfold massT
  rw [mass_perm ω (((h.2 tab).map (fun kt : ℕ × Tree => (decode P.kyy kt.1, kt.2.entries)))).symm]
  unfold mothers mass
  rw [List.map_map, List.map_map]
  congr 1
  refine List.map_congr_left (fun kt _ => ?_)
  exact chainSum_perm _ (h.1 _)

theorem ins_spec {tol p : ℝ} {f : ℕ} (ht : 0 ≤ tol) (t : Tree) :
    ∃ s, |s - p| ≤ tol ∧ (s = p ∨ ∃ g, (s, g) ∈ t.entries)
      ∧ (∀ ω, chainSum ω (t.ins tol p f).entries = chainSum ω t.entries + (f : ℝ) * ω s)
      ∧ ∀ e ∈ (t.ins tol p f).entries, e.1 = p ∨ ∃ g, (e.1, g) ∈ t.entries := by
  induction t with
  | leaf =>
    refine ⟨p, by simpa using ht, Or.inl rfl, fun ω => ?_, fun e he => ?_⟩
    · simp [Tree.ins, Tree.entries, chainSum]
    · simp only [Tree.ins, Tree.entries, List.append_nil, List.mem_singleton] at he
      rw [he]; exact Or.inl rfl
  | node l s g r ihl ihr =>
    unfold Tree.ins
    by_cases h1 : s < p - tol
    · rw [if_pos h1]
      obtain ⟨s', a, b, c, e⟩ := ihl
      refine ⟨s', a, ?_, fun ω => ?_, fun x hx => ?_⟩
      · rcases b with b | ⟨g', b⟩
        · exact Or.inl b
        · exact Or.inr ⟨g', by simp [Tree.entries, b]⟩
      · simp only [Tree.entries, chainSum_cons, chainSum_append, c]; ring
      · simp only [Tree.entries, List.mem_cons, List.mem_append] at hx
        rcases hx with hx | hx | hx
        · exact Or.inr ⟨g, by rw [hx]; simp [Tree.entries]⟩
        · rcases e x hx with h | ⟨g', h⟩
          · exact Or.inl h
          · exact Or.inr ⟨g', by simp [Tree.entries, h]⟩
        · exact Or.inr ⟨x.2, by simp [Tree.entries, hx]⟩
    · rw [if_neg h1]
      by_cases h2 : p + tol < s
      · rw [if_pos h2]
        obtain ⟨s', a, b, c, e⟩ := ihr
        refine ⟨s', a, ?_, fun ω => ?_, fun x hx => ?_⟩
        · rcases b with b | ⟨g', b⟩
          · exact Or.inl b
          · exact Or.inr ⟨g', by simp [Tree.entries, b]⟩
        · simp only [Tree.entries, chainSum_cons, chainSum_append, c]; ring
        · simp only [Tree.entries, List.mem_cons, List.mem_append] at hx
          rcases hx with hx | hx | hx
          · exact Or.inr ⟨g, by rw [hx]; simp [Tree.entries]⟩
          · exact Or.inr ⟨x.2, by simp [Tree.entries, hx]⟩
          · rcases e x hx with h | ⟨g', h⟩
            · exact Or.inl h
            · exact Or.inr ⟨g', by simp [Tree.entries, h]⟩
      · rw [if_neg h2]
        refine ⟨s, ?_, Or.inr ⟨g, by simp [Tree.entries]⟩, fun ω => ?_, fun x hx => ?_⟩
        · rw [abs_le]; constructor <;> linarith
        · simp only [Tree.entries, chainSum_cons]; push_cast; ring
        · simp only [Tree.entries, List.mem_cons] at hx
          rcases hx with hx | hx
          · exact Or.inr ⟨g, by rw [hx]; simp [Tree.entries]⟩
          · exact Or.inr ⟨x.2, by simp only [Tree.entries, List.mem_cons]; exact Or.inr hx⟩

/-- The row totals of a node: sorted, no more than the original ones, and adding up
to the columns that remain. -/
structure Node (iro cols l : List ℕ) : Prop where
  sorted : l.Pairwise (· ≤ ·)
  le : List.Forall₂ (fun x y => y ≤ x) iro l
  sum : l.sum = cols.sum

/-- What is stored is at proper nodes, and satisfies the invariant. -/
def TabOK (iro cols : List ℕ) (Inv : List ℕ → ℝ → Prop) (tab : List (ℕ × Tree)) : Prop :=
  ∀ kt ∈ tab, ∃ l, kt.1 = encode (kyyFrom 1 iro) l ∧ Node iro cols l ∧ ∀ e ∈ kt.2.entries, Inv l e.1

theorem putTab_spec {iro cols : List ℕ} {Inv : List ℕ → ℝ → Prop} {tol p : ℝ} {f : ℕ} {l : List ℕ} (ht : 0 ≤ tol)
    (hn : Node iro cols l) (hp : Inv l p) : ∀ {tab tab' : List (ℕ × Tree)} {b : Bool}, TabOK iro cols Inv tab →
    putTab tol (encode (kyyFrom 1 iro) l) p f tab = some (tab', b) →
    TabOK iro cols Inv tab' ∧ ∃ s, |s - p| ≤ tol ∧ Inv l s
      ∧ ∀ ω, massT (kyyFrom 1 iro) ω tab' = massT (kyyFrom 1 iro) ω tab + (f : ℝ) * ω l s := by
  intro tab
  induction tab with
  | nil => intro tab' b _ h; simp [putTab] at h
  | cons kt tab ih =>
    obtain ⟨k, t⟩ := kt
    intro tab' b hok h
    unfold putTab at h
    have hok' : TabOK iro cols Inv tab := fun x hx => hok x (List.mem_cons_of_mem _ hx)
    obtain ⟨l', hk, hn', hinv⟩ := hok (k, t) (by simp)
    simp only [] at hk hinv
    by_cases hkey : k = encode (kyyFrom 1 iro) l
    · rw [if_pos hkey] at h
      simp only [Option.some.injEq, Prod.mk.injEq] at h
      obtain ⟨rfl, _⟩ := h
      have hll : l' = l := by
        have := congrArg (decode (kyyFrom 1 iro)) (hk.symm.trans hkey)
        rwa [decode_encode hn'.le, decode_encode hn.le] at this
      obtain ⟨s, a, b, c, e⟩ := ins_spec (p := p) (f := f) ht t
      refine ⟨fun x hx => ?_, s, a, ?_, fun ω => ?_⟩
      · rcases List.mem_cons.mp hx with rfl | hx
        · refine ⟨l', hk, hn', fun y hy => ?_⟩
          rcases e y hy with h | ⟨g, h⟩
          · rw [h, hll]; exact hp
          · exact hinv (y.1, g) h
        · exact hok' x hx
      · rcases b with rfl | ⟨g, b⟩
        · exact hp
        · rw [← hll]; exact hinv _ b
      · rw [massT_cons, massT_cons, c, hkey, decode_encode hn.le]; ring
    · rw [if_neg hkey] at h
      cases hp' : putTab tol (encode (kyyFrom 1 iro) l) p f tab with
      | none => rw [hp'] at h; simp at h
      | some r =>
        obtain ⟨tab'', b'⟩ := r
        rw [hp'] at h
        simp only [Option.some.injEq, Prod.mk.injEq] at h
        obtain ⟨rfl, _⟩ := h
        obtain ⟨i1, s, i2, i3, i4⟩ := ih hok' hp'
        refine ⟨fun x hx => ?_, s, i2, i3, fun ω => ?_⟩
        · rcases List.mem_cons.mp hx with rfl | hx
          · exact hok (k, t) (by simp)
          · exact i1 x hx
        · rw [massT_cons, massT_cons, i4]; ring

/-- f5xact adds the frequency at the node, at a path length within `tol`. -/
theorem put_spec {P : Par} {iro cols : List ℕ} {Inv : List ℕ → ℝ → Prop} {p : ℝ} {f : ℕ} {l : List ℕ} {st st' : St}
    (ht : 0 ≤ P.tol) (hn : Node iro cols l) (hp : Inv l p) (hok : TabOK iro cols Inv st.tab)
    (h : put P (encode (kyyFrom 1 iro) l) p f st = .ok st') :
    st'.pre = st.pre ∧ TabOK iro cols Inv st'.tab ∧ ∃ s, |s - p| ≤ P.tol ∧ Inv l s
      ∧ ∀ ω, massT (kyyFrom 1 iro) ω st'.tab = massT (kyyFrom 1 iro) ω st.tab + (f : ℝ) * ω l s := by
  unfold put at h
  cases hpt : putTab P.tol (encode (kyyFrom 1 iro) l) p f st.tab with
  | some r =>
    obtain ⟨tab, b⟩ := r
    have hs := putTab_spec ht hn hp hok hpt
    rw [hpt] at h
    simp only [] at h
    cases b with
    | true =>
      rw [if_pos rfl] at h
      by_cases hc : P.ldstp < st.itop + 1
      · rw [if_pos hc] at h; cases h
      · rw [if_neg hc] at h; cases h; exact ⟨rfl, hs⟩
    | false =>
      rw [if_neg (by simp)] at h; cases h; exact ⟨rfl, hs⟩
  | none =>
    rw [hpt] at h
    simp only [] at h
    by_cases h1 : P.ldkey ≤ st.tab.length
    · rw [if_pos h1] at h; cases h
    · rw [if_neg h1] at h
      by_cases hc : P.ldstp < st.itop + 1
      · rw [if_pos hc] at h; cases h
      · rw [if_neg hc] at h
        cases h
        refine ⟨rfl, fun x hx => ?_, p, by simpa using ht, hp, fun ω => ?_⟩
        · rcases List.mem_append.mp hx with hx | hx
          · exact hok x hx
          · rw [List.mem_singleton] at hx
            subst hx
            refine ⟨l, rfl, hn, fun e he => ?_⟩
            simp only [Tree.entries, List.append_nil, List.mem_singleton] at he
            rw [he]; exact hp
        · show massT _ ω (st.tab ++ _) = _
          rw [massT_append, massT_cons, decode_encode hn.le]
          simp [Tree.entries, chainSum, massT, mass]

theorem put_not_ub {P : Par} {key : ℕ} {p : ℝ} {f : ℕ} {st : St} : put P key p f st ≠ .ub := by
  unfold put
  cases putTab P.tol key p f st.tab with
  | some r =>
    obtain ⟨tab, b⟩ := r
    simp only []
    by_cases hb : b = true
    · rw [if_pos hb]
      by_cases hc : P.ldstp < st.itop + 1
      · rw [if_pos hc]; exact fun h => (by cases h)
      · rw [if_neg hc]; exact fun h => (by cases h)
    · rw [if_neg hb]; exact fun h => (by cases h)
  | none =>
    simp only []
    by_cases h1 : P.ldkey ≤ st.tab.length
    · rw [if_pos h1]; exact fun h => (by cases h)
    · rw [if_neg h1]
      by_cases hc : P.ldstp < st.itop + 1
      · rw [if_pos hc]; exact fun h => (by cases h)
      · rw [if_neg hc]; exact fun h => (by cases h)

end Apop.Fisher
