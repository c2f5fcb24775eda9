import Verif.Fisher.Spec
import Verif.Fisher.Exact
import Mathlib.Analysis.Complex.Exponential

/-! # The network started on the margins of a table -/

namespace Apop.Fisher
open Finset

theorem S_single {l : List ℕ} {n : ℕ} {ps : List (ℕ × ℕ)} (h : Way l n ps) :
    ∀ {F : List (ℕ × ℕ) → ℝ}, (∀ ps, 0 ≤ F ps) → F ps ≤ S l n F := by
  induction h with
  | nil => intro F _; simp [S]
  | @cons a l n ps x hx hn h ih =>
    intro F hF
    unfold S
    refine le_trans (ih (F := fun ps => F ((x, a - x) :: ps)) (fun ps => hF _)) ?_
    have := single_le_sum (f := fun x => if x ≤ n then S l (n - x) (fun ps => F ((x, a - x) :: ps)) else 0)
      (s := range (a + 1)) (fun y _ => ?_) (show x ∈ range (a + 1) by simp; omega)
    · simp only [if_pos hn] at this
      exact this
    · by_cases hy : y ≤ n
      · simp only [if_pos hy]; exact S_nonneg (fun ps => hF _)
      · simp only [if_neg hy]; exact le_refl _

/-- Multinomial coefficients are integers. -/
theorem mult_nat (d : List ℕ) : ∃ b : ℕ, 0 < b ∧ Real.exp (lmult d.sum d) = b := by
  induction d with
  | nil => exact ⟨1, by omega, by simp [lmult, lf]⟩
  | cons a d ih =>
    obtain ⟨b, hb, he⟩ := ih
    refine ⟨(a + d.sum).choose a * b, Nat.mul_pos (Nat.choose_pos (by omega)) hb, ?_⟩
    rw [exp_lmult] at he ⊢
    rw [List.sum_cons, List.map_cons, List.prod_cons, Nat.cast_mul, ← he]
    have h1 := Nat.add_choose_mul_factorial_mul_factorial a d.sum
    have h2 : ((a + d.sum).choose a : ℝ) * a.factorial * d.sum.factorial = ((a + d.sum).factorial : ℝ) := by
      rw [Nat.choose_symm_add]; exact_mod_cast h1
    rw [← h2]
    have h3 : (a.factorial : ℝ) ≠ 0 := by exact_mod_cast a.factorial_ne_zero
    have h4 := (prod_fac_pos d).ne'
    field_simp

/-- Past path lengths are logarithms of integers of limited size. -/
def InvInt (M : ℝ) (l : List ℕ) (p : ℝ) : Prop :=
  ∃ a : ℕ, 0 < a ∧ p = Real.log a ∧ a * Real.exp (lmult l.sum l) ≤ M

theorem lmult_sum_perm {l l' : List ℕ} (h : List.Perm l l') : lmult l.sum l = lmult l'.sum l' := by
  rw [h.sum_eq, lmult_perm h]

theorem invInt_step {M : ℝ} {l d : List ℕ} {n : ℕ} {p : ℝ} (h : InvInt M l p) (hd : Col l n d) :
    InvInt M (sortUp (leave l d)) (p + lmult n d) := by
  obtain ⟨a, ha, rfl, hM⟩ := h
  obtain ⟨b, hb, he⟩ := mult_nat d
  have hds := hd.2
  rw [hds] at he
  refine ⟨a * b, Nat.mul_pos ha hb, ?_, ?_⟩
  · rw [Nat.cast_mul, Real.log_mul (by exact_mod_cast ha.ne') (by exact_mod_cast hb.ne'), ← he, Real.log_exp]
  · refine le_trans ?_ hM
    rw [lmult_sum_perm (sortUp_perm _), Nat.cast_mul, mul_assoc]
    refine mul_le_mul_of_nonneg_left ?_ (Nat.cast_nonneg a)
    have hsum := col_leave_sum hd
    have hw : Way l n (pairs l d) := way_iff.mpr ⟨d, hd, rfl⟩
    have h1 := S_single hw (F := fun ps => Real.exp (lmult n (ps.map Prod.fst)) * Real.exp (lmult (leave l d).sum (ps.map Prod.snd)))
      (fun ps => (mul_pos (Real.exp_pos _) (Real.exp_pos _)).le)
    rw [S_lmult (by omega)] at h1
    simp only [pairs_fst hd.1.length_eq, pairs_snd] at h1
    rw [← he]; exact h1

theorem log_gap {τ M : ℝ} {a b : ℕ} (hτ : 0 ≤ τ) (ha : 0 < a) (hab : a < b) (hM : (a : ℝ) ≤ M) (h : M * (Real.exp τ - 1) < 1) :
    Real.log a + τ < Real.log b := by
  have ha' : (0 : ℝ) < a := by exact_mod_cast ha
  have hb' : (0 : ℝ) < b := by exact_mod_cast (lt_trans ha hab)
  have he : 0 ≤ Real.exp τ - 1 := by have := Real.add_one_le_exp τ; linarith
  have h1 : a * (Real.exp τ - 1) < 1 := lt_of_le_of_lt (mul_le_mul_of_nonneg_right hM he) h
  have h2 : (a : ℝ) + 1 ≤ b := by exact_mod_cast hab
  rw [← Real.log_exp τ, ← Real.log_mul ha'.ne' (Real.exp_pos _).ne']
  exact Real.log_lt_log (mul_pos ha' (Real.exp_pos _)) (by nlinarith)

theorem int_close {τ M : ℝ} {a b : ℕ} (hτ : 0 ≤ τ) (ha : 0 < a) (hb : 0 < b) (haM : (a : ℝ) ≤ M) (hbM : (b : ℝ) ≤ M)
    (h : M * (Real.exp τ - 1) < 1) (hc : |Real.log b - Real.log a| ≤ τ) : a = b := by
  rcases lt_trichotomy a b with hab | hab | hab
  · have := log_gap hτ ha hab haM h
    rw [abs_le] at hc; linarith [hc.2]
  · exact hab
  · have := log_gap hτ hb hab hbM h
    rw [abs_le] at hc; linarith [hc.1]

theorem invInt_close {M τ : ℝ} {l : List ℕ} {p s : ℝ} (hτ : 0 ≤ τ) (h : M * (Real.exp τ - 1) < 1) (hp : InvInt M l p) (hs : InvInt M l s)
    (hc : |s - p| ≤ τ) : |s - p| ≤ 0 := by
  obtain ⟨a, ha, rfl, haM⟩ := hp
  obtain ⟨b, hb, rfl, hbM⟩ := hs
  obtain ⟨m, hm, hme⟩ := mult_nat l
  have h1 : (1 : ℝ) ≤ Real.exp (lmult l.sum l) := by rw [hme]; exact_mod_cast hm
  have e1 : (a : ℝ) ≤ M := le_trans (by nlinarith [Nat.cast_nonneg (α := ℝ) a]) haM
  have e2 : (b : ℝ) ≤ M := le_trans (by nlinarith [Nat.cast_nonneg (α := ℝ) b]) hbM
  rw [int_close hτ ha hb e1 e2 h hc]; simp

theorem sortUp_length (l : List ℕ) : (sortUp l).length = l.length := (sortUp_perm l).length_eq

theorem lastPos_sorted {l : List ℕ} (h : l.Pairwise (· ≤ ·)) (hs : 0 < l.sum) : LastPos l := by
  have hne : l ≠ [] := by rintro rfl; simp at hs
  have h1 := sorted_last h hs
  have hl : l.length ≠ 0 := by simpa using hne
  refine ⟨l.dropLast, l.getLast hne, (List.dropLast_append_getLast hne).symm, ?_⟩
  rw [List.getLast_eq_getElem]
  unfold arr at h1
  rw [if_neg hl, List.getD_eq_getElem _ _ (by omega)] at h1
  exact h1

/-- The margins, the observed path length and the denominator of a table. -/
structure Start {r c : ℕ} (P : Par) (Z : Table r c) (iro ico : List ℕ) : Prop where
  iro : iro = sortUp (List.ofFn (rowTot Z))
  ico : ico = sortUp (List.ofFn (colTot Z))
  obs : P.obs = path Z + P.tol
  dro : P.dro = lmult (total Z) (List.ofFn (rowTot Z))
  cols : 2 ≤ c
  pos : 0 < total Z

theorem prob_same {r c : ℕ} {Y Z : Table r c} (hY : Y ∈ tables (rowTot Z) (colTot Z)) :
    prob Y = Real.exp (-lmult (total Z) (List.ofFn (rowTot Z))) * Real.exp (path Y) := by
  rw [mem_tables] at hY
  rw [prob_path, hY.1, show total Y = total Z by rw [← total_rows, ← total_rows, hY.1], ← Real.exp_add]
  congr 1; ring

theorem prob_cmp {r c : ℕ} {Y Z : Table r c} (hY : Y ∈ tables (rowTot Z) (colTot Z)) (s : ℝ) :
    prob Y ≤ prob Z * Real.exp s ↔ path Y ≤ path Z + s := by
  rw [prob_same hY, prob_path, ← Real.exp_add, ← Real.exp_add, Real.exp_le_exp]
  constructor <;> intro h <;> linarith

open Classical in
/-- What the network adds up lies between two sums over tables. -/
theorem net_table {r c : ℕ} {P : Par} {Z : Table r c} {iro ico : List ℕ} {Inv : List ℕ → ℝ → Prop} {ε pre : ℝ}
    (C : Ctx P iro Inv ε r (c - 1)) (s : Start P Z iro ico) (h0 : Inv iro 0)
    (h : network P ico [(iro, [(0, 1)])] 0 = .ok pre) :
    pre ≤ Real.exp ((c - 2 : ℕ) * ε) * ∑ Y ∈ tables (rowTot Z) (colTot Z),
        (if prob Y ≤ prob Z * Real.exp (P.tol + (c - 2 : ℕ) * ε) then prob Y else 0)
    ∧ Real.exp (-((c - 2 : ℕ) * ε)) * ∑ Y ∈ tables (rowTot Z) (colTot Z),
        (if prob Y < prob Z * Real.exp (P.tol - (c - 2 : ℕ) * ε) then prob Y else 0) ≤ pre := by
  have hc := s.cols
  have hlen : ico.length = c := by rw [s.ico, sortUp_length, List.length_ofFn]
  have hsum : iro.sum = ico.sum := by
    rw [s.iro, s.ico, (sortUp_perm _).sum_eq, (sortUp_perm _).sum_eq, List.sum_ofFn, List.sum_ofFn, sum_margins]
  have hpos : 0 < ico.sum := by
    rw [s.ico, (sortUp_perm _).sum_eq, List.sum_ofFn, ← sum_margins, total_rows]; exact s.pos
  have hsorted : ico.Pairwise (· ≤ ·) := by rw [s.ico]; exact sortUp_sorted _
  have hms : MsOK iro ico Inv [(iro, [(0, 1)])] := by
    intro m hm
    rw [List.mem_singleton] at hm
    subst hm
    refine ⟨⟨by rw [s.iro]; exact sortUp_sorted _, ?_, hsum⟩, ?_⟩
    · exact List.forall₂_same.mpr (fun x _ => le_refl x)
    · intro e he
      rw [List.mem_singleton] at he
      subst he; exact h0
  obtain ⟨h1, h2⟩ := network_spec C (c - 2) (by omega) (by omega) hsorted (lastPos_sorted hsorted hpos) hms h
  rw [mul_zero, zero_add] at h1 h2
  have hm1 : ∀ ω : List ℕ → ℝ → ℝ, mass ω [(iro, [(0, 1)])] = ω iro 0 := by
    intro ω; simp [mass, chainSum]
  rw [hm1] at h1 h2
  unfold Up at h1
  unfold Lo at h2
  rw [s.iro, s.ico, W_sorted] at h1 h2
  have hd := Real.exp_pos P.dro
  have key : ∀ x : ℝ, Real.exp P.dro * (Real.exp (-lmult (total Z) (List.ofFn (rowTot Z))) * x) = x := by
    intro x; rw [← s.dro, ← mul_assoc, ← Real.exp_add]; simp
  constructor
  · have e : ∑ Y ∈ tables (rowTot Z) (colTot Z), atMost (P.obs + (c - 2 : ℕ) * ε) 0 (path Y)
        = Real.exp P.dro * ∑ Y ∈ tables (rowTot Z) (colTot Z),
        (if prob Y ≤ prob Z * Real.exp (P.tol + (c - 2 : ℕ) * ε) then prob Y else 0) := by
      rw [mul_sum]
      refine sum_congr rfl (fun Y hY => ?_)
      unfold atMost
      rw [zero_add, s.obs]
      by_cases hle : path Y ≤ path Z + P.tol + (c - 2 : ℕ) * ε
      · rw [if_pos hle, if_pos ((prob_cmp hY _).mpr (by linarith)), prob_same hY, key]
      · rw [if_neg hle, if_neg (fun hh => hle (by have := (prob_cmp hY _).mp hh; linarith)), mul_zero]
    rw [e] at h1
    refine le_of_mul_le_mul_left ?_ hd
    calc _ ≤ _ := h1
      _ = _ := by ring
  · have e : ∑ Y ∈ tables (rowTot Z) (colTot Z), below (P.obs - (c - 2 : ℕ) * ε) 0 (path Y)
        = Real.exp P.dro * ∑ Y ∈ tables (rowTot Z) (colTot Z),
        (if prob Y < prob Z * Real.exp (P.tol - (c - 2 : ℕ) * ε) then prob Y else 0) := by
      rw [mul_sum]
      refine sum_congr rfl (fun Y hY => ?_)
      unfold below
      rw [zero_add, s.obs]
      have hlt : prob Y < prob Z * Real.exp (P.tol - (c - 2 : ℕ) * ε) ↔ path Y < path Z + P.tol - (c - 2 : ℕ) * ε := by
        rw [prob_same hY, prob_path, ← Real.exp_add, ← Real.exp_add, Real.exp_lt_exp]
        constructor <;> intro h <;> linarith
      by_cases hle : path Y < path Z + P.tol - (c - 2 : ℕ) * ε
      · rw [if_pos hle, if_pos (hlt.mpr hle), prob_same hY, key]
      · rw [if_neg hle, if_neg (fun hh => hle (hlt.mp hh)), mul_zero]
    rw [e] at h2
    refine le_of_mul_le_mul_left ?_ hd
    calc _ = _ := by ring
      _ ≤ _ := h2

end Apop.Fisher
