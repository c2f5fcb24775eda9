import Verif.Stats.Variance

/-! # C54: the estimators of variance and skew are unbiased -/

namespace Apop.Stats
variable {K : Type} [Field K]

/-- A distribution over finitely many values: pairs of a probability and a value. -/
abbrev Dist (K : Type) := List (K × K)

/-- The expectation of a function of one draw. -/
def Dist.mean (d : Dist K) (g : K → K) : K := (d.map (fun px => px.1 * g px.2)).sum

/-- The expectation of a function of a sample of `n` independent draws. -/
def expect (d : Dist K) : ℕ → (List K → K) → K
  | 0, F => F []
  | n + 1, F => d.mean (fun x => expect d n (fun l => F (x :: l)))

theorem mean_add (d : Dist K) (f g : K → K) : d.mean (fun x => f x + g x) = d.mean f + d.mean g := by
  induction d with
  | nil => simp [Dist.mean]
  | cons a d ih => simp only [Dist.mean, List.map_cons, List.sum_cons] at ih ⊢; rw [ih]; ring

theorem mean_mul (d : Dist K) (c : K) (f : K → K) : d.mean (fun x => c * f x) = c * d.mean f := by
  induction d with
  | nil => simp [Dist.mean]
  | cons a d ih => simp only [Dist.mean, List.map_cons, List.sum_cons] at ih ⊢; rw [ih]; ring

theorem mean_mul' (d : Dist K) (c : K) (f : K → K) : d.mean (fun x => f x * c) = d.mean f * c := by
  rw [mul_comm, ← mean_mul]; congr 1; funext x; ring

theorem mean_const (d : Dist K) (h : d.mean (fun _ => 1) = 1) (c : K) : d.mean (fun _ => c) = c := by
  have := mean_mul d c (fun _ => 1)
  simpa [h] using this

theorem expect_congr (d : Dist K) : ∀ (n : ℕ) (F G : List K → K), (∀ l : List K, l.length = n → F l = G l) → expect d n F = expect d n G
  | 0, F, G, h => h [] rfl
  | n + 1, F, G, h => by
    simp only [expect]
    congr 1
    funext x
    exact expect_congr d n _ _ (fun l hl => h (x :: l) (by simp [hl]))

theorem expect_add (d : Dist K) : ∀ (n : ℕ) (F G : List K → K), expect d n (fun l => F l + G l) = expect d n F + expect d n G
  | 0, _, _ => rfl
  | n + 1, F, G => by simp only [expect, expect_add d n, mean_add]

theorem expect_mul (d : Dist K) (c : K) : ∀ (n : ℕ) (F : List K → K), expect d n (fun l => c * F l) = c * expect d n F
  | 0, _ => rfl
  | n + 1, F => by simp only [expect, expect_mul d c n, mean_mul]

theorem expect_const (d : Dist K) (h : d.mean (fun _ => 1) = 1) (c : K) : ∀ n : ℕ, expect d n (fun _ => c) = c
  | 0 => rfl
  | n + 1 => by simp only [expect, expect_const d h c n, mean_const d h]

/-- Σ(x - m)^k. -/
def dev (m : K) (k : ℕ) (l : List K) : K := (l.map (fun x => (x - m) ^ k)).sum

theorem dev_cons (m : K) (k : ℕ) (x : K) (l : List K) : dev m k (x :: l) = (x - m) ^ k + dev m k l := by simp [dev]

section Central
variable (d : Dist K) (h1 : d.mean (fun _ => 1) = 1)
include h1

theorem mean_dev : d.mean (fun x => x - d.mean id) = 0 := by
  have : d.mean (fun x => x - d.mean id) = d.mean (fun x => id x + (-1) * d.mean id) := by congr 1; funext x; simp; ring
  rw [this, mean_add, mean_const d h1]
  ring

theorem expect_dev (k : ℕ) : ∀ n : ℕ, expect d n (dev (d.mean id) k) = n * d.mean (fun x => (x - d.mean id) ^ k)
  | 0 => by simp [expect, dev]
  | n + 1 => by
    simp only [expect, dev_cons, expect_add, expect_const d h1, expect_dev k n, mean_add, mean_const d h1]
    push_cast; ring

theorem expect_dev1 (n : ℕ) : expect d n (dev (d.mean id) 1) = 0 := by
  rw [expect_dev d h1]; simp [mean_dev d h1]

theorem expect_dev1_sq : ∀ n : ℕ, expect d n (fun l => dev (d.mean id) 1 l ^ 2) = n * d.mean (fun x => (x - d.mean id) ^ 2)
  | 0 => by simp [expect, dev]
  | n + 1 => by
    have e : ∀ x : K, expect d n (fun l => dev (d.mean id) 1 (x :: l) ^ 2) =
        (x - d.mean id) ^ 2 + n * d.mean (fun x => (x - d.mean id) ^ 2) := by
      intro x
      have : (fun l => dev (d.mean id) 1 (x :: l) ^ 2) = fun l => ((x - d.mean id) ^ 2 + (2 * (x - d.mean id)) * dev (d.mean id) 1 l) + dev (d.mean id) 1 l ^ 2 := by
        funext l; rw [dev_cons]; ring
      rw [this, expect_add, expect_add, expect_const d h1, expect_mul, expect_dev1 d h1, expect_dev1_sq n]; ring
    rw [expect]
    simp only [e]
    rw [mean_add, mean_const d h1]
    push_cast; ring

theorem expect_dev12 : ∀ n : ℕ, expect d n (fun l => dev (d.mean id) 1 l * dev (d.mean id) 2 l) = n * d.mean (fun x => (x - d.mean id) ^ 3)
  | 0 => by simp [expect, dev]
  | n + 1 => by
    have e : ∀ x : K, expect d n (fun l => dev (d.mean id) 1 (x :: l) * dev (d.mean id) 2 (x :: l)) =
        (x - d.mean id) ^ 3 + (n * d.mean (fun x => (x - d.mean id) ^ 2)) * (x - d.mean id) + n * d.mean (fun x => (x - d.mean id) ^ 3) := by
      intro x
      have : (fun l => dev (d.mean id) 1 (x :: l) * dev (d.mean id) 2 (x :: l)) =
          fun l => (((x - d.mean id) ^ 3 + (x - d.mean id) * dev (d.mean id) 2 l) + (x - d.mean id) ^ 2 * dev (d.mean id) 1 l) + dev (d.mean id) 1 l * dev (d.mean id) 2 l := by
        funext l; simp only [dev_cons]; ring
      rw [this, expect_add, expect_add, expect_add, expect_const d h1, expect_mul, expect_mul, expect_dev1 d h1, expect_dev d h1, expect_dev12 n]; ring
    rw [expect]
    simp only [e]
    rw [mean_add, mean_add, mean_const d h1, mean_mul, mean_dev d h1]
    push_cast; ring

theorem expect_dev1_cube : ∀ n : ℕ, expect d n (fun l => dev (d.mean id) 1 l ^ 3) = n * d.mean (fun x => (x - d.mean id) ^ 3)
  | 0 => by simp [expect, dev]
  | n + 1 => by
    have e : ∀ x : K, expect d n (fun l => dev (d.mean id) 1 (x :: l) ^ 3) =
        (x - d.mean id) ^ 3 + (3 * (n * d.mean (fun x => (x - d.mean id) ^ 2))) * (x - d.mean id) + n * d.mean (fun x => (x - d.mean id) ^ 3) := by
      intro x
      have : (fun l => dev (d.mean id) 1 (x :: l) ^ 3) =
          fun l => (((x - d.mean id) ^ 3 + (3 * (x - d.mean id) ^ 2) * dev (d.mean id) 1 l) + (3 * (x - d.mean id)) * dev (d.mean id) 1 l ^ 2) + dev (d.mean id) 1 l ^ 3 := by
        funext l; simp only [dev_cons]; ring
      rw [this, expect_add, expect_add, expect_add, expect_const d h1, expect_mul, expect_mul, expect_dev1 d h1, expect_dev1_sq d h1, expect_dev1_cube n]; ring
    rw [expect]
    simp only [e]
    rw [mean_add, mean_add, mean_const d h1, mean_mul, mean_dev d h1]
    push_cast; ring

end Central

/-- Σ(x - c)^k around another centre, for squares and cubes. -/
theorem dev_shift (l : List K) (m c : K) :
    dev c 2 l = dev m 2 l + 2 * (m - c) * dev m 1 l + l.length * (m - c) ^ 2 ∧
    dev c 3 l = dev m 3 l + 3 * (m - c) * dev m 2 l + 3 * (m - c) ^ 2 * dev m 1 l + l.length * (m - c) ^ 3 := by
  induction l with
  | nil => simp [dev]
  | cons x l ih =>
    simp only [dev_cons, ih.1, ih.2, List.length_cons]
    push_cast
    constructor <;> ring

theorem sum_dev (l : List K) (m : K) : l.sum = dev m 1 l + l.length * m := by
  induction l with
  | nil => simp [dev]
  | cons x l ih => simp only [dev_cons, List.sum_cons, List.length_cons, ih]; push_cast; ring

variable [LinearOrder K] [IsStrictOrderedRing K]

/-- **C54 (variance).** The expectation of `apop_vector_var` over samples of two or more independent draws is the variance of the distribution, for every distribution over finitely many values. -/
theorem C54_var (d : Dist K) (h1 : d.mean (fun _ => 1) = 1) (n : ℕ) (hn : 2 ≤ n) :
    expect d n (fun l => (vectorVar (some l) none).getD 0) = d.mean (fun x => (x - d.mean id) ^ 2) := by
  obtain ⟨_, n2, n3⟩ := nat_ge_two (K := K) hn
  rw [expect_congr d n _ (fun l => (1 / ((n : K) - 1)) * dev (d.mean id) 2 l + (-1 / (n * ((n : K) - 1))) * dev (d.mean id) 1 l ^ 2)]
  · rw [expect_add, expect_mul, expect_mul, expect_dev d h1, expect_dev1_sq d h1]
    field_simp
    ring
  · intro l hl
    rw [C52_var l (by omega), Option.getD_some, hl]
    have := (dev_shift l (d.mean id) (l.sum / n)).1
    unfold dev at this ⊢
    rw [this]
    have hs := sum_dev l (d.mean id)
    unfold dev at hs
    rw [hs, hl]
    field_simp
    ring

/-- **C54 (skew).** The expectation of `apop_vector_skew` over samples of three or more independent draws is the third central moment of the distribution. -/
theorem C54_skew (d : Dist K) (h1 : d.mean (fun _ => 1) = 1) (n : ℕ) (hn : 3 ≤ n) :
    expect d n (fun l => (vectorSkew l).getD 0) = d.mean (fun x => (x - d.mean id) ^ 3) := by
  obtain ⟨_, n2, n3⟩ := nat_ge_two (K := K) (n := n) (by omega)
  have n4 : (n : K) - 2 ≠ 0 := by
    have : (3 : K) ≤ n := by exact_mod_cast hn
    intro h0; linarith
  rw [expect_congr d n _ (fun l => ((n / (((n : K) - 1) * (n - 2))) * dev (d.mean id) 3 l + (-3 / (((n : K) - 1) * (n - 2))) * (dev (d.mean id) 1 l * dev (d.mean id) 2 l)) +
    (2 / (n * ((n : K) - 1) * (n - 2))) * dev (d.mean id) 1 l ^ 3)]
  · rw [expect_add, expect_add, expect_mul, expect_mul, expect_mul, expect_dev d h1, expect_dev12 d h1, expect_dev1_cube d h1]
    field_simp
    ring
  · intro l hl
    have hne : l ≠ [] := by intro e; simp [e] at hl; omega
    rw [vectorSkew, C53_pop 3 l hne]
    simp only [Option.bind_eq_bind, Option.bind_some, cdiv, hl]
    rw [if_neg (mul_ne_zero n3 n4), Option.getD_some]
    have := (dev_shift l (d.mean id) (l.sum / n)).2
    unfold dev at this ⊢
    rw [this]
    have hs := sum_dev l (d.mean id)
    unfold dev at hs
    rw [hs, hl]
    field_simp
    ring

/-- **C54 fails for the fourth moment**: for a fair coin and samples of two, the expectation of `apop_vector_kurtosis` is -1/8, and the fourth central moment is 1/16. -/
theorem C58_biased : ∃ d : Dist ℚ, d.mean (fun _ => 1) = 1 ∧ expect d 2 (fun l => (vectorKurtosis l).getD 0) = -1 / 8 ∧
    d.mean (fun x => (x - d.mean id) ^ 4) = 1 / 16 := by
  obtain ⟨h00, h01, h10, h11⟩ := C58_values
  refine ⟨[(1 / 2, 0), (1 / 2, 1)], by norm_num [Dist.mean], ?_, by norm_num [Dist.mean]⟩
  simp only [expect, Dist.mean, List.map_cons, List.map_nil, List.sum_cons, List.sum_nil, h00, h01, h10, h11, Option.getD_some]
  norm_num

end Apop.Stats
