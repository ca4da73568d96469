import Mathlib.Algebra.BigOperators.Ring.Finset
import Mathlib.Algebra.BigOperators.Intervals
import Mathlib.Algebra.GroupWithZero.Units.Basic
import Mathlib.Tactic.Abel
import Mathlib.Tactic.NoncommRing

/-!
# Affine scattering matrices

A proof device (not part of the model): quantum networks as matrices
`[[1, R, K], [0, S, L], [0, 0, 1]]` over a ring, for which the series product is matrix multiplication and
feedback is a Schur complement.  `Verif/SLH/ToAff.lean` embeds isometric SLH triples.
-/

open Finset

namespace QNET

variable {A : Type*} [Ring A]

structure Aff (A : Type*) [Ring A] where
  n : ℕ
  S : ℕ → ℕ → A
  L : ℕ → A
  R : ℕ → A
  K : A
  hS : ∀ i j, ¬ (i < n ∧ j < n) → S i j = 0
  hL : ∀ i, ¬ i < n → L i = 0
  hR : ∀ i, ¬ i < n → R i = 0

namespace Aff

def mk' (n : ℕ) (S : ℕ → ℕ → A) (L R : ℕ → A) (K : A) : Aff A where
  n := n
  S := fun i j => if i < n ∧ j < n then S i j else 0
  L := fun i => if i < n then L i else 0
  R := fun i => if i < n then R i else 0
  K := K
  hS := fun _ _ h => if_neg h
  hL := fun _ h => if_neg h
  hR := fun _ h => if_neg h

@[simp] theorem mk'_n (n : ℕ) (S : ℕ → ℕ → A) (L R : ℕ → A) (K : A) : (mk' n S L R K).n = n := rfl
@[simp] theorem mk'_K (n : ℕ) (S : ℕ → ℕ → A) (L R : ℕ → A) (K : A) : (mk' n S L R K).K = K := rfl
theorem mk'_S {n : ℕ} {S : ℕ → ℕ → A} {L R : ℕ → A} {K : A} {i j : ℕ} (hi : i < n) (hj : j < n) :
    (mk' n S L R K).S i j = S i j := if_pos ⟨hi, hj⟩
theorem mk'_L {n : ℕ} {S : ℕ → ℕ → A} {L R : ℕ → A} {K : A} {i : ℕ} (hi : i < n) :
    (mk' n S L R K).L i = L i := if_pos hi
theorem mk'_R {n : ℕ} {S : ℕ → ℕ → A} {L R : ℕ → A} {K : A} {i : ℕ} (hi : i < n) :
    (mk' n S L R K).R i = R i := if_pos hi

theorem ext' {a b : Aff A} (hn : a.n = b.n) (hS : ∀ i j, i < a.n → j < a.n → a.S i j = b.S i j)
    (hL : ∀ i, i < a.n → a.L i = b.L i) (hR : ∀ i, i < a.n → a.R i = b.R i) (hK : a.K = b.K) : a = b := by
  obtain ⟨n, S, L, R, K, h1, h2, h3⟩ := a
  obtain ⟨n', S', L', R', K', h1', h2', h3'⟩ := b
  simp only at hn hS hL hR hK
  subst hn hK
  have e1 : S = S' := by
    funext i j
    by_cases h : i < n ∧ j < n
    · exact hS i j h.1 h.2
    · rw [h1 i j h, h1' i j h]
  have e2 : L = L' := by
    funext i
    by_cases h : i < n
    · exact hL i h
    · rw [h2 i h, h2' i h]
  have e3 : R = R' := by
    funext i
    by_cases h : i < n
    · exact hR i h
    · rw [h3 i h, h3' i h]
  subst e1 e2 e3
  rfl

/-! ### Operations -/

def series (a b : Aff A) : Aff A :=
  mk' a.n (fun i j => ∑ k ∈ range a.n, a.S i k * b.S k j) (fun i => ∑ k ∈ range a.n, a.S i k * b.L k + a.L i)
    (fun j => b.R j + ∑ k ∈ range a.n, a.R k * b.S k j) (a.K + b.K + ∑ k ∈ range a.n, a.R k * b.L k)

def one (n : ℕ) : Aff A := mk' n (fun i j => if i = j then 1 else 0) (fun _ => 0) (fun _ => 0) 0

def concat (a b : Aff A) : Aff A :=
  mk' (a.n + b.n)
    (fun i j => if i < a.n then (if j < a.n then a.S i j else 0) else (if j < a.n then 0 else b.S (i - a.n) (j - a.n)))
    (fun i => if i < a.n then a.L i else b.L (i - a.n))
    (fun i => if i < a.n then a.R i else b.R (i - a.n))
    (a.K + b.K)

/-- `{0,…,n-2} → {0,…,n-1}` skipping `o` -/
def up (o a : ℕ) : ℕ := if a < o then a else a + 1

/-- feedback from output `o` to input `i`, with `x` the inverse of `1 - S o i` -/
def fb (o i : ℕ) (x : A) (a : Aff A) : Aff A :=
  mk' (a.n - 1) (fun k l => a.S (up o k) (up i l) + a.S (up o k) i * x * a.S o (up i l))
    (fun k => a.L (up o k) + a.S (up o k) i * x * a.L o)
    (fun l => a.R (up i l) + a.R i * x * a.S o (up i l))
    (a.K + a.R i * x * a.L o)

@[simp] theorem series_n (a b : Aff A) : (series a b).n = a.n := rfl
@[simp] theorem one_n (n : ℕ) : (one n : Aff A).n = n := rfl
@[simp] theorem concat_n (a b : Aff A) : (concat a b).n = a.n + b.n := rfl
@[simp] theorem fb_n (o i : ℕ) (x : A) (a : Aff A) : (fb o i x a).n = a.n - 1 := rfl

theorem series_S {a b : Aff A} {i j : ℕ} (hi : i < a.n) (hj : j < a.n) :
    (series a b).S i j = ∑ k ∈ range a.n, a.S i k * b.S k j := mk'_S hi hj
theorem series_L {a b : Aff A} {i : ℕ} (hi : i < a.n) :
    (series a b).L i = ∑ k ∈ range a.n, a.S i k * b.L k + a.L i := mk'_L hi
theorem series_R {a b : Aff A} {j : ℕ} (hj : j < a.n) :
    (series a b).R j = b.R j + ∑ k ∈ range a.n, a.R k * b.S k j := mk'_R hj
theorem series_K (a b : Aff A) : (series a b).K = a.K + b.K + ∑ k ∈ range a.n, a.R k * b.L k := rfl

theorem series_S' {a b : Aff A} (h : a.n = b.n) (i j : ℕ) :
    (series a b).S i j = ∑ k ∈ range a.n, a.S i k * b.S k j := by
  by_cases hij : i < a.n ∧ j < a.n
  · exact series_S hij.1 hij.2
  · rw [(series a b).hS i j hij]
    symm
    apply Finset.sum_eq_zero
    intro k hk
    by_cases hi : i < a.n
    · rw [b.hS k j (by omega), mul_zero]
    · rw [a.hS i k (by omega), zero_mul]

theorem series_L' {a b : Aff A} (i : ℕ) :
    (series a b).L i = ∑ k ∈ range a.n, a.S i k * b.L k + a.L i := by
  by_cases hi : i < a.n
  · exact series_L hi
  · rw [(series a b).hL i hi, a.hL i hi, add_zero]
    symm
    apply Finset.sum_eq_zero
    intro k hk
    rw [a.hS i k (by omega), zero_mul]

theorem series_R' {a b : Aff A} (h : a.n = b.n) (i : ℕ) :
    (series a b).R i = b.R i + ∑ k ∈ range a.n, a.R k * b.S k i := by
  by_cases hi : i < a.n
  · exact series_R hi
  · rw [(series a b).hR i hi, b.hR i (by omega), zero_add]
    symm
    apply Finset.sum_eq_zero
    intro k hk
    rw [b.hS k i (by omega), mul_zero]

theorem series_assoc {a b c : Aff A} (h1 : a.n = b.n) (h2 : b.n = c.n) :
    series (series a b) c = series a (series b c) := by
  have hbc : a.n = (series b c).n := h1
  refine ext' (by rfl) ?_ ?_ ?_ ?_
  · intro i j _ _
    rw [series_S' (by simp; omega), series_S' hbc]
    simp only [series_n, series_S' h1, series_S' h2, ← h1]
    simp only [Finset.sum_mul, Finset.mul_sum, mul_assoc]
    exact Finset.sum_comm
  · intro i _
    rw [series_L', series_L']
    simp only [series_n, series_S' h1, series_L', ← h1]
    simp only [Finset.sum_mul, Finset.mul_sum, mul_assoc, mul_add, Finset.sum_add_distrib, ← add_assoc]
    rw [Finset.sum_comm]
  · intro j _
    rw [series_R' (by simp; omega), series_R' hbc]
    simp only [series_n, series_R' h1, series_S' h2, series_R' h2, ← h1]
    simp only [Finset.sum_mul, Finset.mul_sum, mul_assoc, add_mul, Finset.sum_add_distrib, ← add_assoc]
    rw [Finset.sum_comm (s := range a.n) (t := range a.n)]
  · rw [series_K, series_K, series_K, series_K]
    simp only [series_n, series_R' h1, series_L', ← h1]
    simp only [Finset.sum_mul, Finset.mul_sum, mul_assoc, mul_add, add_mul, Finset.sum_add_distrib, ← add_assoc]
    rw [Finset.sum_comm (s := range a.n) (t := range a.n)]
    abel

theorem sum_ite_eq_left {n i : ℕ} (hi : i < n) (f : ℕ → A) :
    ∑ k ∈ range n, (if i = k then (1 : A) else 0) * f k = f i := by
  rw [Finset.sum_eq_single i]
  · simp
  · intro k _ hk; simp [Ne.symm hk]
  · intro h; simp at h; omega

theorem sum_ite_eq_right {n j : ℕ} (hj : j < n) (f : ℕ → A) :
    ∑ k ∈ range n, f k * (if k = j then (1 : A) else 0) = f j := by
  rw [Finset.sum_eq_single j]
  · simp
  · intro k _ hk; simp [hk]
  · intro h; simp at h; omega

theorem one_S {n i j : ℕ} (hi : i < n) (hj : j < n) : (one n : Aff A).S i j = if i = j then 1 else 0 := mk'_S hi hj
@[simp] theorem one_L (n i : ℕ) : (one n : Aff A).L i = 0 := by simp [one, mk']
@[simp] theorem one_R (n i : ℕ) : (one n : Aff A).R i = 0 := by simp [one, mk']
@[simp] theorem one_K (n : ℕ) : (one n : Aff A).K = 0 := rfl

theorem one_series {n : ℕ} {a : Aff A} (h : a.n = n) : series (one n) a = a := by
  apply ext' (by simp [h])
  · intro i j hi hj
    simp only [series_n, one_n] at hi hj
    rw [series_S hi hj]
    simp only [one_n]
    rw [Finset.sum_congr rfl (fun k hk => by rw [one_S hi (Finset.mem_range.mp hk)])]
    exact sum_ite_eq_left hi (fun k => a.S k j)
  · intro i hi
    simp only [series_n, one_n] at hi
    rw [series_L hi]
    simp only [one_n, one_L, add_zero]
    rw [Finset.sum_congr rfl (fun k hk => by rw [one_S hi (Finset.mem_range.mp hk)])]
    exact sum_ite_eq_left hi (fun k => a.L k)
  · intro j hj
    rw [series_R' (by simp [h])]
    simp
  · simp [series_K]

theorem series_one {n : ℕ} {a : Aff A} (h : a.n = n) : series a (one n) = a := by
  subst h
  refine ext' (by rfl) ?_ ?_ ?_ ?_
  · intro i j hi hj
    simp only [series_n] at hi hj
    rw [series_S hi hj]
    rw [Finset.sum_congr rfl (fun k hk => by rw [one_S (Finset.mem_range.mp hk) hj])]
    exact sum_ite_eq_right hj (fun k => a.S i k)
  · intro i hi
    rw [series_L']
    simp
  · intro j hj
    simp only [series_n] at hj
    rw [series_R hj]
    simp only [one_R, zero_add]
    rw [Finset.sum_congr rfl (fun k hk => by rw [one_S (Finset.mem_range.mp hk) hj])]
    exact sum_ite_eq_right hj (fun k => a.R k)
  · simp [series_K]

/-! ### Concatenation -/

theorem concat_S {a b : Aff A} {i j : ℕ} (hi : i < a.n + b.n) (hj : j < a.n + b.n) :
    (concat a b).S i j = if i < a.n then (if j < a.n then a.S i j else 0)
      else (if j < a.n then 0 else b.S (i - a.n) (j - a.n)) := mk'_S hi hj
theorem concat_L {a b : Aff A} {i : ℕ} (hi : i < a.n + b.n) :
    (concat a b).L i = if i < a.n then a.L i else b.L (i - a.n) := mk'_L hi
theorem concat_R {a b : Aff A} {i : ℕ} (hi : i < a.n + b.n) :
    (concat a b).R i = if i < a.n then a.R i else b.R (i - a.n) := mk'_R hi
theorem concat_K (a b : Aff A) : (concat a b).K = a.K + b.K := rfl

theorem concat_ll {a b : Aff A} {i j : ℕ} (hi : i < a.n) (hj : j < a.n) : (concat a b).S i j = a.S i j := by
  rw [concat_S (by omega) (by omega), if_pos hi, if_pos hj]
theorem concat_lr {a b : Aff A} {i j : ℕ} (hi : i < a.n) (hj : a.n ≤ j) : (concat a b).S i j = 0 := by
  by_cases h : j < a.n + b.n
  · rw [concat_S (by omega) (by omega), if_pos hi, if_neg (by omega)]
  · exact (concat a b).hS _ _ (by simp; omega)
theorem concat_rl {a b : Aff A} {i j : ℕ} (hi : a.n ≤ i) (hj : j < a.n) : (concat a b).S i j = 0 := by
  by_cases h : i < a.n + b.n
  · rw [concat_S (by omega) (by omega), if_neg (by omega), if_pos (by omega)]
  · exact (concat a b).hS _ _ (by simp; omega)
theorem concat_rr {a b : Aff A} {i j : ℕ} (hi : a.n ≤ i) (hj : a.n ≤ j) :
    (concat a b).S i j = b.S (i - a.n) (j - a.n) := by
  by_cases h : i < a.n + b.n ∧ j < a.n + b.n
  · rw [concat_S (by omega) (by omega), if_neg (by omega), if_neg (by omega)]
  · rw [(concat a b).hS _ _ (by simp; omega), b.hS _ _ (by omega)]
theorem concat_Ll {a b : Aff A} {i : ℕ} (hi : i < a.n) : (concat a b).L i = a.L i := by
  rw [concat_L (by omega), if_pos hi]
theorem concat_Lr {a b : Aff A} {i : ℕ} (hi : a.n ≤ i) : (concat a b).L i = b.L (i - a.n) := by
  by_cases h : i < a.n + b.n
  · rw [concat_L h, if_neg (by omega)]
  · rw [(concat a b).hL _ (by simp; omega), b.hL _ (by omega)]
theorem concat_Rl {a b : Aff A} {i : ℕ} (hi : i < a.n) : (concat a b).R i = a.R i := by
  rw [concat_R (by omega), if_pos hi]
theorem concat_Rr {a b : Aff A} {i : ℕ} (hi : a.n ≤ i) : (concat a b).R i = b.R (i - a.n) := by
  by_cases h : i < a.n + b.n
  · rw [concat_R h, if_neg (by omega)]
  · rw [(concat a b).hR _ (by simp; omega), b.hR _ (by omega)]

theorem concat_assoc (a b c : Aff A) : concat (concat a b) c = concat a (concat b c) := by
  apply ext' (by simp [Nat.add_assoc])
  · intro i j _ _
    by_cases h1 : i < a.n <;> by_cases h2 : j < a.n
    · rw [concat_ll (by simp; omega) (by simp; omega), concat_ll h1 h2, concat_ll h1 h2]
    · rw [concat_lr (a := a) (b := concat b c) h1 (by omega)]
      by_cases h4 : j < a.n + b.n
      · rw [concat_ll (by simp; omega) (by simp; omega), concat_lr h1 (by omega)]
      · rw [concat_lr (by simp; omega) (by simp; omega)]
    · rw [concat_rl (a := a) (b := concat b c) (by omega) h2]
      by_cases h3 : i < a.n + b.n
      · rw [concat_ll (by simp; omega) (by simp; omega), concat_rl (by omega) h2]
      · rw [concat_rl (by simp; omega) (by simp; omega)]
    · rw [concat_rr (a := a) (b := concat b c) (by omega) (by omega)]
      by_cases h3 : i < a.n + b.n <;> by_cases h4 : j < a.n + b.n
      · rw [concat_ll (by simp; omega) (by simp; omega), concat_rr (by omega) (by omega),
          concat_ll (by omega) (by omega)]
      · rw [concat_lr (by simp; omega) (by simp; omega), concat_lr (by omega) (by omega)]
      · rw [concat_rl (by simp; omega) (by simp; omega), concat_rl (by omega) (by omega)]
      · rw [concat_rr (by simp; omega) (by simp; omega), concat_rr (by omega) (by omega), concat_n,
          Nat.sub_sub, Nat.sub_sub]
  · intro i _
    by_cases h1 : i < a.n
    · rw [concat_Ll (by simp; omega), concat_Ll h1, concat_Ll h1]
    · rw [concat_Lr (a := a) (b := concat b c) (by omega)]
      by_cases h3 : i < a.n + b.n
      · rw [concat_Ll (by simp; omega), concat_Lr (by omega), concat_Ll (by omega)]
      · rw [concat_Lr (by simp; omega), concat_Lr (by omega), concat_n, Nat.sub_sub]
  · intro i _
    by_cases h1 : i < a.n
    · rw [concat_Rl (by simp; omega), concat_Rl h1, concat_Rl h1]
    · rw [concat_Rr (a := a) (b := concat b c) (by omega)]
      by_cases h3 : i < a.n + b.n
      · rw [concat_Rl (by simp; omega), concat_Rr (by omega), concat_Rl (by omega)]
      · rw [concat_Rr (by simp; omega), concat_Rr (by omega), concat_n, Nat.sub_sub]
  · simp [concat_K, add_assoc]

theorem zero_concat (a : Aff A) : concat (one 0) a = a := by
  apply ext' (by simp)
  · intro i j hi hj
    rw [concat_S hi hj]; simp
  · intro i hi; rw [concat_L hi]; simp
  · intro i hi; rw [concat_R hi]; simp
  · simp [concat_K]

theorem concat_zero (a : Aff A) : concat a (one 0) = a := by
  apply ext' (by simp)
  · intro i j hi hj
    simp only [concat_n, one_n, Nat.add_zero] at hi hj
    rw [concat_S hi hj]; simp [hi, hj]
  · intro i hi
    simp only [concat_n, one_n, Nat.add_zero] at hi
    rw [concat_L hi]; simp [hi]
  · intro i hi
    simp only [concat_n, one_n, Nat.add_zero] at hi
    rw [concat_R hi]; simp [hi]
  · simp [concat_K]

theorem one_concat_one (m n : ℕ) : concat (one m) (one n) = (one (m + n) : Aff A) := by
  refine ext' (by rfl) ?_ ?_ ?_ ?_
  · intro i j hi hj
    simp only [concat_n, one_n] at hi hj
    rw [one_S hi hj]
    by_cases h1 : i < m <;> by_cases h2 : j < m
    · rw [concat_ll (by simpa using h1) (by simpa using h2), one_S h1 h2]
    · rw [concat_lr (by simpa using h1) (by simpa using h2), if_neg (by omega)]
    · rw [concat_rl (by simpa using h1) (by simpa using h2), if_neg (by omega)]
    · rw [concat_rr (by simpa using h1) (by simpa using h2)]
      rw [one_S (by simp; omega) (by simp; omega)]
      by_cases e : i = j
      · simp [e]
      · rw [if_neg (by simp only [one_n]; omega), if_neg e]
  · intro i hi; rw [concat_L hi]; simp
  · intro i hi; rw [concat_R hi]; simp
  · simp [concat_K]

theorem sum_split (m n : ℕ) (F f g : ℕ → A) (h1 : ∀ k, k < m → F k = f k) (h2 : ∀ k, k < n → F (m + k) = g k) :
    ∑ k ∈ range (m + n), F k = ∑ k ∈ range m, f k + ∑ k ∈ range n, g k := by
  rw [Finset.sum_range_add]
  congr 1
  · exact Finset.sum_congr rfl (fun k hk => h1 k (Finset.mem_range.mp hk))
  · exact Finset.sum_congr rfl (fun k hk => h2 k (Finset.mem_range.mp hk))

theorem interchange {a1 a2 b1 b2 : Aff A} (h1 : a1.n = b1.n) (h2 : a2.n = b2.n) :
    series (concat a1 a2) (concat b1 b2) = concat (series a1 b1) (series a2 b2) := by
  have hn : (concat a1 a2).n = (concat b1 b2).n := by simp [h1, h2]
  refine ext' (by rfl) ?_ ?_ ?_ ?_
  · intro i j hi hj
    rw [series_S' hn]
    by_cases c1 : i < a1.n <;> by_cases c2 : j < a1.n
    · rw [concat_ll (by simpa using c1) (by simpa using c2), series_S' h1]
      rw [concat_n, sum_split a1.n a2.n _ (fun k => a1.S i k * b1.S k j) (fun _ => 0)]
      · simp
      · intro k hk; rw [concat_ll c1 hk, concat_ll (by omega) (by omega)]
      · intro k hk; rw [concat_lr c1 (by omega), zero_mul]
    · rw [concat_lr (by simpa using c1) (by simpa using c2)]
      rw [concat_n, sum_split a1.n a2.n _ (fun k => 0) (fun _ => 0)]
      · simp
      · intro k hk; rw [concat_lr (a := b1) (by omega) (by omega), mul_zero]
      · intro k hk; rw [concat_lr c1 (by omega), zero_mul]
    · rw [concat_rl (by simpa using c1) (by simpa using c2)]
      rw [concat_n, sum_split a1.n a2.n _ (fun k => 0) (fun _ => 0)]
      · simp
      · intro k hk; rw [concat_rl (a := a1) (by omega) hk, zero_mul]
      · intro k hk; rw [concat_rl (a := b1) (by omega) (by omega), mul_zero]
    · rw [concat_rr (by simpa using c1) (by simpa using c2), series_S' h2, series_n]
      rw [concat_n, sum_split a1.n a2.n _ (fun k => 0) (fun k => a2.S (i - a1.n) k * b2.S k (j - a1.n))]
      · simp
      · intro k hk; rw [concat_rl (a := a1) (by omega) hk, zero_mul]
      · intro k hk; rw [concat_rr (by omega) (by omega), concat_rr (by omega) (by omega), ← h1, Nat.add_sub_cancel_left]
  · intro i hi
    rw [series_L']
    by_cases c1 : i < a1.n
    · rw [concat_Ll (a := series a1 b1) c1, concat_Ll c1, series_L']
      congr 1
      rw [concat_n, sum_split a1.n a2.n _ (fun k => a1.S i k * b1.L k) (fun _ => 0)]
      · simp
      · intro k hk; rw [concat_ll c1 hk, concat_Ll (by omega)]
      · intro k hk; rw [concat_lr c1 (by omega), zero_mul]
    · rw [concat_Lr (a := series a1 b1) (by simpa using c1), concat_Lr (by omega), series_L', series_n]
      congr 1
      rw [concat_n, sum_split a1.n a2.n _ (fun _ => 0) (fun k => a2.S (i - a1.n) k * b2.L k)]
      · simp
      · intro k hk; rw [concat_rl (by omega) hk, zero_mul]
      · intro k hk; rw [concat_rr (by omega) (by omega), concat_Lr (by omega), ← h1, Nat.add_sub_cancel_left]
  · intro j hj
    rw [series_R' hn]
    by_cases c1 : j < a1.n
    · rw [concat_Rl (a := series a1 b1) c1, concat_Rl (by omega), series_R' h1]
      congr 1
      rw [concat_n, sum_split a1.n a2.n _ (fun k => a1.R k * b1.S k j) (fun _ => 0)]
      · simp
      · intro k hk; rw [concat_Rl hk, concat_ll (by omega) (by omega)]
      · intro k hk; rw [concat_rl (a := b1) (by omega) (by omega), mul_zero]
    · rw [concat_Rr (a := series a1 b1) (by simpa using c1), concat_Rr (by omega), series_R' h2, series_n, ← h1]
      congr 1
      rw [concat_n, sum_split a1.n a2.n _ (fun _ => 0) (fun k => a2.R k * b2.S k (j - a1.n))]
      · simp
      · intro k hk; rw [concat_lr (a := b1) (by omega) (by omega), mul_zero]
      · intro k hk; rw [concat_rr (by omega) (by omega), concat_Rr (by omega), ← h1, Nat.add_sub_cancel_left]
  · rw [series_K, concat_K, concat_K, concat_K, series_K, series_K, concat_n,
      sum_split a1.n a2.n _ (fun k => a1.R k * b1.L k) (fun k => a2.R k * b2.L k)]
    · abel
    · intro k hk; rw [concat_Rl hk, concat_Ll (by omega)]
    · intro k hk; rw [concat_Rr (by omega), concat_Lr (by omega), ← h1, Nat.add_sub_cancel_left]

end Aff

end QNET
