import Verif.SLH.Aff

/-! # Feedback laws for affine scattering matrices -/

open Finset

namespace QNET

variable {A : Type*} [Ring A]

namespace Aff

theorem up_lt {o k n : ℕ} (hk : k < n - 1) : up o k < n := by unfold up; split <;> omega
theorem up_ne (o k : ℕ) : up o k ≠ o := by unfold up; split <;> omega
theorem up_inj {o k l : ℕ} (h : up o k = up o l) : k = l := by unfold up at h; split at h <;> split at h <;> omega
theorem exists_up {o i n : ℕ} (hi : i < n) (ho : o < n) (h : i ≠ o) : ∃ k, k < n - 1 ∧ up o k = i := by
  by_cases c : i < o
  · exact ⟨i, by omega, if_pos c⟩
  · exact ⟨i - 1, by omega, by unfold up; rw [if_neg (by omega)]; omega⟩

theorem sum_up {M : Type*} [AddCommMonoid M] {n o : ℕ} (ho : o < n) (f : ℕ → M) :
    ∑ k ∈ range n, f k = ∑ k ∈ range (n - 1), f (up o k) + f o := by
  obtain ⟨m, rfl⟩ : ∃ m, n = o + (m + 1) := ⟨n - o - 1, by omega⟩
  rw [Finset.sum_range_add, Finset.sum_range_succ', show o + (m + 1) - 1 = o + m by omega, Finset.sum_range_add]
  have e1 : ∑ k ∈ range o, f (up o k) = ∑ k ∈ range o, f k :=
    Finset.sum_congr rfl (fun k hk => by rw [up, if_pos (Finset.mem_range.mp hk)])
  have e2 : ∑ k ∈ range m, f (up o (o + k)) = ∑ k ∈ range m, f (o + (k + 1)) :=
    Finset.sum_congr rfl (fun k hk => by rw [up, if_neg (by omega)]; rfl)
  rw [e1, e2]
  simp only [Nat.add_zero, add_assoc]

theorem fb_S {a : Aff A} {o i : ℕ} {x : A} {k l : ℕ} (hk : k < a.n - 1) (hl : l < a.n - 1) :
    (fb o i x a).S k l = a.S (up o k) (up i l) + a.S (up o k) i * x * a.S o (up i l) := mk'_S hk hl
theorem fb_L {a : Aff A} {o i : ℕ} {x : A} {k : ℕ} (hk : k < a.n - 1) :
    (fb o i x a).L k = a.L (up o k) + a.S (up o k) i * x * a.L o := mk'_L hk
theorem fb_R {a : Aff A} {o i : ℕ} {x : A} {l : ℕ} (hl : l < a.n - 1) :
    (fb o i x a).R l = a.R (up i l) + a.R i * x * a.S o (up i l) := mk'_R hl
theorem fb_K (a : Aff A) (o i : ℕ) (x : A) : (fb o i x a).K = a.K + a.R i * x * a.L o := rfl

/-- `A'` connects input `i` directly to output `o`; on the remaining channels it is `B`. -/
structure Thread (o i : ℕ) (A' B : Aff A) : Prop where
  n_eq : A'.n = B.n + 1
  ho : o < A'.n
  hi : i < A'.n
  S : ∀ k l, k < B.n → l < B.n → A'.S (up o k) (up i l) = B.S k l
  row : ∀ l, l < B.n → A'.S o (up i l) = 0
  col : ∀ k, k < B.n → A'.S (up o k) i = 0
  one : A'.S o i = 1
  L : ∀ k, k < B.n → A'.L (up o k) = B.L k
  Lo : A'.L o = 0
  R : ∀ l, l < B.n → A'.R (up i l) = B.R l
  Ri : A'.R i = 0
  K : A'.K = B.K

/-- pulling a circuit that only passes the feedback channel through out of the loop (outputs) -/
theorem thread_left {o i j : ℕ} {x : A} {A' B C : Aff A} (h : Thread o i A' B) (hn : A'.n = C.n) (hj : j < C.n) :
    (series A' C).S o j = C.S i j ∧ fb o j x (series A' C) = series B (fb i j x C) := by
  have hB := h.n_eq
  have hi := h.hi
  have ho := h.ho
  have hrow : ∀ l, (series A' C).S o l = C.S i l := by
    intro l
    rw [series_S' hn, sum_up hi, Finset.sum_eq_zero, h.one, one_mul, zero_add]
    intro k hk
    rw [h.row k (by have := Finset.mem_range.mp hk; omega), zero_mul]
  have hrowL : (series A' C).L o = C.L i := by
    rw [series_L', sum_up hi, Finset.sum_eq_zero, h.one, one_mul, zero_add, h.Lo, add_zero]
    intro k hk
    rw [h.row k (by have := Finset.mem_range.mp hk; omega), zero_mul]
  have hr : B.n = A'.n - 1 := by omega
  have hS : ∀ k, k < B.n → ∀ l, (series A' C).S (up o k) l = ∑ m ∈ range B.n, B.S k m * C.S (up i m) l := by
    intro k hk l
    rw [series_S' hn, sum_up hi, h.col k hk, zero_mul, add_zero, ← hr]
    exact Finset.sum_congr rfl (fun m hm => by rw [h.S k m hk (Finset.mem_range.mp hm)])
  have hL : ∀ k, k < B.n → (series A' C).L (up o k) = ∑ m ∈ range B.n, B.S k m * C.L (up i m) + B.L k := by
    intro k hk
    rw [series_L', sum_up hi, h.col k hk, zero_mul, add_zero, h.L k hk, ← hr]
    congr 1
    exact Finset.sum_congr rfl (fun m hm => by rw [h.S k m hk (Finset.mem_range.mp hm)])
  have hR : ∀ l, (series A' C).R l = C.R l + ∑ m ∈ range B.n, B.R m * C.S (up i m) l := by
    intro l
    rw [series_R' hn, sum_up hi, h.Ri, zero_mul, add_zero, ← hr]
    congr 1
    exact Finset.sum_congr rfl (fun m hm => by rw [h.R m (Finset.mem_range.mp hm)])
  have hK : (series A' C).K = B.K + C.K + ∑ m ∈ range B.n, B.R m * C.L (up i m) := by
    rw [series_K, sum_up hi, h.Ri, zero_mul, add_zero, ← hr, h.K]
    congr 1
    exact Finset.sum_congr rfl (fun m hm => by rw [h.R m (Finset.mem_range.mp hm)])
  refine ⟨hrow j, ext' (by simp; omega) ?_ ?_ ?_ ?_⟩
  · intro k l hk hl
    simp only [fb_n, series_n] at hk hl
    rw [fb_S (by simpa using hk) (by simpa using hl), hrow, hS k (by omega), hS k (by omega),
      series_S (by omega) (by omega)]
    simp only [Finset.sum_mul, ← Finset.sum_add_distrib]
    refine Finset.sum_congr rfl (fun m hm => ?_)
    rw [fb_S (by have := Finset.mem_range.mp hm; omega) (by omega)]
    simp only [mul_add, mul_assoc]
  · intro k hk
    simp only [fb_n, series_n] at hk
    rw [fb_L (by simpa using hk), hrowL, hS k (by omega), hL k (by omega), series_L (by omega)]
    rw [Finset.sum_mul, Finset.sum_mul]
    rw [Finset.sum_congr rfl (s₁ := range B.n) (f := fun m => B.S k m * (fb i j x C).L m)
      (g := fun m => B.S k m * C.L (up i m) + B.S k m * C.S (up i m) j * x * C.L i)]
    · rw [Finset.sum_add_distrib]; abel
    · intro m hm
      rw [fb_L (by have := Finset.mem_range.mp hm; omega)]
      simp only [mul_add, mul_assoc]
  · intro l hl
    simp only [fb_n, series_n] at hl
    rw [fb_R (by simpa using hl), hR, hR, hrow, series_R (by omega), fb_R (by omega)]
    rw [Finset.sum_congr rfl (s₁ := range B.n) (f := fun k => B.R k * (fb i j x C).S k l)
      (g := fun m => B.R m * C.S (up i m) (up j l) + B.R m * C.S (up i m) j * x * C.S i (up j l))]
    · rw [Finset.sum_add_distrib]
      simp only [add_mul, Finset.sum_mul]
      abel
    · intro m hm
      rw [fb_S (by have := Finset.mem_range.mp hm; omega) (by omega)]
      simp only [mul_add, mul_assoc]
  · rw [fb_K, hK, hR, hrowL, series_K, fb_K]
    rw [Finset.sum_congr rfl (s₁ := range B.n) (f := fun k => B.R k * (fb i j x C).L k)
      (g := fun m => B.R m * C.L (up i m) + B.R m * C.S (up i m) j * x * C.L i)]
    · rw [Finset.sum_add_distrib]
      simp only [add_mul, Finset.sum_mul]
      abel
    · intro m hm
      rw [fb_L (by have := Finset.mem_range.mp hm; omega)]
      simp only [mul_add, mul_assoc]

/-- pulling a circuit that only passes the feedback channel through out of the loop (inputs) -/
theorem thread_right {o i j : ℕ} {x : A} {A' B C : Aff A} (h : Thread o i A' B) (hn : A'.n = C.n) (hj : j < C.n) :
    (series C A').S j i = C.S j o ∧ fb j i x (series C A') = series (fb j o x C) B := by
  have hB := h.n_eq
  have hi := h.hi
  have ho := h.ho
  have ho' : o < C.n := by omega
  have hcol : ∀ l, (series C A').S l i = C.S l o := by
    intro l
    rw [series_S' hn.symm, sum_up ho', Finset.sum_eq_zero, h.one, mul_one, zero_add]
    intro k hk
    rw [h.col k (by have := Finset.mem_range.mp hk; omega), mul_zero]
  have hcolR : (series C A').R i = C.R o := by
    rw [series_R' hn.symm, sum_up ho', Finset.sum_eq_zero, h.one, mul_one, zero_add, h.Ri, zero_add]
    intro k hk
    rw [h.col k (by have := Finset.mem_range.mp hk; omega), mul_zero]
  have hr : B.n = C.n - 1 := by omega
  have hS : ∀ k, k < B.n → ∀ l, (series C A').S l (up i k) = ∑ m ∈ range B.n, C.S l (up o m) * B.S m k := by
    intro k hk l
    rw [series_S' hn.symm, sum_up ho', h.row k hk, mul_zero, add_zero, ← hr]
    exact Finset.sum_congr rfl (fun m hm => by rw [h.S m k (Finset.mem_range.mp hm) hk])
  have hR : ∀ k, k < B.n → (series C A').R (up i k) = B.R k + ∑ m ∈ range B.n, C.R (up o m) * B.S m k := by
    intro k hk
    rw [series_R' hn.symm, sum_up ho', h.row k hk, mul_zero, add_zero, h.R k hk, ← hr]
    congr 1
    exact Finset.sum_congr rfl (fun m hm => by rw [h.S m k (Finset.mem_range.mp hm) hk])
  have hL : ∀ l, (series C A').L l = ∑ m ∈ range B.n, C.S l (up o m) * B.L m + C.L l := by
    intro l
    rw [series_L', sum_up ho', h.Lo, mul_zero, add_zero, ← hr]
    congr 1
    exact Finset.sum_congr rfl (fun m hm => by rw [h.L m (Finset.mem_range.mp hm)])
  have hK : (series C A').K = C.K + B.K + ∑ m ∈ range B.n, C.R (up o m) * B.L m := by
    rw [series_K, sum_up ho', h.Lo, mul_zero, add_zero, ← hr, h.K]
    congr 1
    exact Finset.sum_congr rfl (fun m hm => by rw [h.L m (Finset.mem_range.mp hm)])
  refine ⟨hcol j, ext' (by simp) ?_ ?_ ?_ ?_⟩
  · intro k l hk hl
    simp only [fb_n, series_n] at hk hl
    rw [fb_S (by simpa using hk) (by simpa using hl), hcol, hS l (by omega), hS l (by omega),
      series_S (by simpa using hk) (by simpa using hl)]
    simp only [Finset.mul_sum, ← Finset.sum_add_distrib, fb_n, ← hr]
    refine Finset.sum_congr rfl (fun m hm => ?_)
    rw [fb_S hk (by have := Finset.mem_range.mp hm; omega)]
    simp only [add_mul, mul_assoc]
  · intro k hk
    simp only [fb_n, series_n] at hk
    rw [fb_L (by simpa using hk), hcol, hL, hL, series_L (by simpa using hk), fb_L hk]
    simp only [fb_n, ← hr]
    rw [Finset.sum_congr rfl (s₁ := range B.n) (f := fun m => (fb j o x C).S k m * B.L m)
      (g := fun m => C.S (up j k) (up o m) * B.L m + C.S (up j k) o * x * (C.S j (up o m) * B.L m))]
    · rw [Finset.sum_add_distrib]
      simp only [mul_add, Finset.mul_sum]
      abel
    · intro m hm
      rw [fb_S hk (by have := Finset.mem_range.mp hm; omega)]
      simp only [add_mul, mul_assoc]
  · intro l hl
    simp only [fb_n, series_n] at hl
    rw [fb_R (by simpa using hl), hcolR, hS l (by omega), hR l (by omega), series_R (by simpa using hl)]
    simp only [fb_n, ← hr, Finset.mul_sum]
    rw [Finset.sum_congr rfl (s₁ := range B.n) (f := fun m => (fb j o x C).R m * B.S m l)
      (g := fun m => C.R (up o m) * B.S m l + C.R o * x * (C.S j (up o m) * B.S m l))]
    · rw [Finset.sum_add_distrib]; abel
    · intro m hm
      rw [fb_R (by have := Finset.mem_range.mp hm; omega)]
      simp only [add_mul, mul_assoc]
  · rw [fb_K, hK, hcolR, hL, series_K, fb_K]
    simp only [fb_n, ← hr]
    rw [Finset.sum_congr rfl (s₁ := range B.n) (f := fun m => (fb j o x C).R m * B.L m)
      (g := fun m => C.R (up o m) * B.L m + C.R o * x * (C.S j (up o m) * B.L m))]
    · rw [Finset.sum_add_distrib]
      simp only [mul_add, Finset.mul_sum]
      abel
    · intro m hm
      rw [fb_R (by have := Finset.mem_range.mp hm; omega)]
      simp only [add_mul, mul_assoc]

/-! ### Concatenation and feedback -/

theorem fb_concat_right {a b : Aff A} {o i : ℕ} {x : A} (ho : o < b.n) :
    (concat a b).S (a.n + o) (a.n + i) = b.S o i ∧
    fb (a.n + o) (a.n + i) x (concat a b) = concat a (fb o i x b) := by
  have hup1 : ∀ o k, k < a.n → up (a.n + o) k = k := by intro o k hk; rw [up, if_pos (by omega)]
  have hup2 : ∀ o k, a.n ≤ k → up (a.n + o) k = a.n + up o (k - a.n) := by
    intro o k hk
    unfold up
    by_cases c : k < a.n + o
    · rw [if_pos c, if_pos (by omega)]; omega
    · rw [if_neg c, if_neg (by omega)]; omega
  refine ⟨by rw [concat_rr (by omega) (by omega), Nat.add_sub_cancel_left, Nat.add_sub_cancel_left],
    ext' (by simp; omega) ?_ ?_ ?_ ?_⟩
  · intro k l hk hl
    simp only [fb_n, concat_n] at hk hl
    rw [fb_S hk hl]
    by_cases c1 : k < a.n <;> by_cases c2 : l < a.n
    · rw [hup1 _ _ c1, hup1 _ _ c2, concat_ll c1 c2, concat_ll c1 c2, concat_lr (i := k) c1 (by omega)]; simp
    · rw [hup1 _ _ c1, hup2 _ _ (by omega), concat_lr c1 (by omega), concat_lr c1 (by omega),
        concat_lr c1 (by omega)]; simp
    · rw [hup1 _ _ c2, hup2 _ _ (by omega), concat_rl (by omega) c2, concat_rl (by omega) c2,
        concat_rl (by omega) c2]; simp
    · rw [hup2 _ _ (by omega), hup2 _ _ (by omega), concat_rr (by omega) (by omega), concat_rr (by omega) (by omega),
        concat_rr (by omega) (by omega), concat_rr (by omega) (by omega), fb_S (by omega) (by omega)]
      simp only [Nat.add_sub_cancel_left]
  · intro k hk
    simp only [fb_n, concat_n] at hk
    rw [fb_L hk]
    by_cases c1 : k < a.n
    · rw [hup1 _ _ c1, concat_Ll c1, concat_Ll c1, concat_lr c1 (by omega)]; simp
    · rw [hup2 _ _ (by omega), concat_Lr (by omega), concat_Lr (by omega), concat_Lr (by omega),
        concat_rr (by omega) (by omega), fb_L (by omega)]
      simp only [Nat.add_sub_cancel_left]
  · intro k hk
    simp only [fb_n, concat_n] at hk
    rw [fb_R hk]
    by_cases c1 : k < a.n
    · rw [hup1 _ _ c1, concat_Rl c1, concat_Rl c1, concat_rl (by omega) c1]; simp
    · rw [hup2 _ _ (by omega), concat_Rr (by omega), concat_Rr (by omega), concat_Rr (by omega),
        concat_rr (by omega) (by omega), fb_R (by omega)]
      simp only [Nat.add_sub_cancel_left]
  · rw [fb_K, concat_K, concat_K, concat_Rr (by omega), concat_Lr (by omega), fb_K]
    simp only [Nat.add_sub_cancel_left]; abel

theorem fb_concat_left {a b : Aff A} {o i : ℕ} {x : A} (ho : o < a.n) (hi : i < a.n) :
    (concat a b).S o i = a.S o i ∧
    fb o i x (concat a b) = concat (fb o i x a) b := by
  have hup2 : ∀ o k, o < a.n → a.n - 1 ≤ k → up o k = k + 1 := by
    intro o k ho hk; rw [up, if_neg (by omega)]
  have hup1 : ∀ o k, k < a.n - 1 → up o k < a.n := fun o k hk => up_lt hk
  refine ⟨concat_ll ho hi, ext' (by simp; omega) ?_ ?_ ?_ ?_⟩
  · intro k l hk hl
    simp only [fb_n, concat_n] at hk hl
    rw [fb_S hk hl]
    by_cases c1 : k < a.n - 1 <;> by_cases c2 : l < a.n - 1
    · rw [concat_ll (hup1 _ _ c1) (hup1 _ _ c2), concat_ll (hup1 _ _ c1) hi, concat_ll ho (hup1 _ _ c2),
        concat_ll (by simpa using c1) (by simpa using c2), fb_S c1 c2]
    · rw [hup2 i l hi (by omega), concat_lr (a := fb o i x a) (by simpa using c1) (by simp; omega), concat_lr (hup1 _ _ c1) (by omega), concat_lr ho (by omega)]; simp
    · rw [hup2 o k ho (by omega), concat_rl (a := fb o i x a) (by simp; omega) (by simpa using c2), concat_rl (by omega) (hup1 _ _ c2), concat_rl (by omega) hi]; simp
    · rw [hup2 o k ho (by omega), hup2 i l hi (by omega), concat_rr (a := fb o i x a) (by simp; omega) (by simp; omega), concat_rr (by omega) (by omega), concat_rl (by omega) hi]
      simp only [fb_n, zero_mul, add_zero]
      congr 1 <;> omega
  · intro k hk
    simp only [fb_n, concat_n] at hk
    rw [fb_L hk]
    by_cases c1 : k < a.n - 1
    · rw [concat_Ll (hup1 _ _ c1), concat_ll (hup1 _ _ c1) hi, concat_Ll ho, concat_Ll (by simpa using c1), fb_L c1]
    · rw [hup2 o k ho (by omega), concat_Lr (a := fb o i x a) (by simp; omega), concat_Lr (by omega), concat_rl (by omega) hi]
      simp only [fb_n, zero_mul, add_zero]
      congr 1; omega
  · intro k hk
    simp only [fb_n, concat_n] at hk
    rw [fb_R hk]
    by_cases c1 : k < a.n - 1
    · rw [concat_Rl (hup1 _ _ c1), concat_ll ho (hup1 _ _ c1), concat_Rl hi, concat_Rl (by simpa using c1), fb_R c1]
    · rw [hup2 i k hi (by omega), concat_Rr (a := fb o i x a) (by simp; omega), concat_Rr (by omega), concat_lr ho (by omega)]
      simp only [fb_n, mul_zero, add_zero]
      congr 1; omega
  · rw [fb_K, concat_K, concat_K, concat_Rl hi, concat_Ll ho, fb_K]
    abel

/-! ### Threads of concatenations -/

theorem Thread.concat_right {o i : ℕ} {A' B : Aff A} (h : Thread o i A' B) (C : Aff A) :
    Thread o i (concat A' C) (concat B C) := by
  have hn := h.n_eq
  have hup : ∀ o k, o < A'.n → B.n ≤ k → up o k = k + 1 := by intro o k ho hk; rw [up, if_neg (by omega)]
  have hlt : ∀ o k, k < B.n → up o k < A'.n := fun o k hk => up_lt (by omega)
  have ho := h.ho
  have hi := h.hi
  refine ⟨by simp; omega, by simp; omega, by simp; omega, ?_, ?_, ?_, ?_, ?_, ?_, ?_, ?_, ?_⟩
  · intro k l hk hl
    by_cases c1 : k < B.n <;> by_cases c2 : l < B.n
    · rw [concat_ll (hlt _ _ c1) (hlt _ _ c2), concat_ll c1 c2, h.S k l c1 c2]
    · rw [hup i l hi (by omega), concat_lr (hlt _ _ c1) (by omega), concat_lr c1 (by omega)]
    · rw [hup o k ho (by omega), concat_rl (by omega) (hlt _ _ c2), concat_rl (by omega) c2]
    · rw [hup o k ho (by omega), hup i l hi (by omega), concat_rr (by omega) (by omega), concat_rr (by omega) (by omega)]
      congr 1 <;> omega
  · intro l hl
    by_cases c2 : l < B.n
    · rw [concat_ll ho (hlt _ _ c2), h.row l c2]
    · rw [hup i l hi (by omega), concat_lr ho (by omega)]
  · intro k hk
    by_cases c2 : k < B.n
    · rw [concat_ll (hlt _ _ c2) hi, h.col k c2]
    · rw [hup o k ho (by omega), concat_rl (by omega) hi]
  · rw [concat_ll ho hi, h.one]
  · intro k hk
    by_cases c2 : k < B.n
    · rw [concat_Ll (hlt _ _ c2), concat_Ll c2, h.L k c2]
    · rw [hup o k ho (by omega), concat_Lr (by omega), concat_Lr (by omega)]
      congr 1; omega
  · rw [concat_Ll ho, h.Lo]
  · intro k hk
    by_cases c2 : k < B.n
    · rw [concat_Rl (hlt _ _ c2), concat_Rl c2, h.R k c2]
    · rw [hup i k hi (by omega), concat_Rr (by omega), concat_Rr (by omega)]
      congr 1; omega
  · rw [concat_Rl hi, h.Ri]
  · rw [concat_K, concat_K, h.K]

theorem Thread.concat_left {o i : ℕ} {A' B : Aff A} (h : Thread o i A' B) (C : Aff A) :
    Thread (C.n + o) (C.n + i) (concat C A') (concat C B) := by
  have hn := h.n_eq
  have ho := h.ho
  have hi := h.hi
  have hup1 : ∀ o k, k < C.n → up (C.n + o) k = k := by intro o k hk; rw [up, if_pos (by omega)]
  have hup2 : ∀ o k, C.n ≤ k → up (C.n + o) k = C.n + up o (k - C.n) := by
    intro o k hk
    unfold up
    by_cases c : k < C.n + o
    · rw [if_pos c, if_pos (by omega)]; omega
    · rw [if_neg c, if_neg (by omega)]; omega
  refine ⟨by simp; omega, by simp; omega, by simp; omega, ?_, ?_, ?_, ?_, ?_, ?_, ?_, ?_, ?_⟩
  · intro k l hk hl
    simp only [concat_n] at hk hl
    by_cases c1 : k < C.n <;> by_cases c2 : l < C.n
    · rw [hup1 _ _ c1, hup1 _ _ c2, concat_ll c1 c2, concat_ll c1 c2]
    · rw [hup1 _ _ c1, hup2 _ _ (by omega), concat_lr c1 (by omega), concat_lr c1 (by omega)]
    · rw [hup1 _ _ c2, hup2 _ _ (by omega), concat_rl (by omega) c2, concat_rl (by omega) c2]
    · rw [hup2 _ _ (by omega), hup2 _ _ (by omega), concat_rr (by omega) (by omega), concat_rr (by omega) (by omega),
        Nat.add_sub_cancel_left, Nat.add_sub_cancel_left, h.S _ _ (by omega) (by omega)]
  · intro l hl
    simp only [concat_n] at hl
    by_cases c2 : l < C.n
    · rw [hup1 _ _ c2, concat_rl (by omega) c2]
    · rw [hup2 _ _ (by omega), concat_rr (by omega) (by omega), Nat.add_sub_cancel_left, Nat.add_sub_cancel_left,
        h.row _ (by omega)]
  · intro l hl
    simp only [concat_n] at hl
    by_cases c2 : l < C.n
    · rw [hup1 _ _ c2, concat_lr c2 (by omega)]
    · rw [hup2 _ _ (by omega), concat_rr (by omega) (by omega), Nat.add_sub_cancel_left, Nat.add_sub_cancel_left,
        h.col _ (by omega)]
  · rw [concat_rr (by omega) (by omega), Nat.add_sub_cancel_left, Nat.add_sub_cancel_left, h.one]
  · intro k hk
    simp only [concat_n] at hk
    by_cases c2 : k < C.n
    · rw [hup1 _ _ c2, concat_Ll c2, concat_Ll c2]
    · rw [hup2 _ _ (by omega), concat_Lr (by omega), concat_Lr (by omega), Nat.add_sub_cancel_left, h.L _ (by omega)]
  · rw [concat_Lr (by omega), Nat.add_sub_cancel_left, h.Lo]
  · intro k hk
    simp only [concat_n] at hk
    by_cases c2 : k < C.n
    · rw [hup1 _ _ c2, concat_Rl c2, concat_Rl c2]
    · rw [hup2 _ _ (by omega), concat_Rr (by omega), concat_Rr (by omega), Nat.add_sub_cancel_left, h.R _ (by omega)]
  · rw [concat_Rr (by omega), Nat.add_sub_cancel_left, h.Ri]
  · rw [concat_K, concat_K, h.K]

theorem thread_one {n o : ℕ} (ho : o < n) : Thread o o (one n : Aff A) (one (n - 1)) := by
  refine ⟨by simp; omega, ho, ho, ?_, ?_, ?_, ?_, ?_, ?_, ?_, ?_, ?_⟩
  · intro k l hk hl
    simp only [one_n] at hk hl; rw [one_S (up_lt hk) (up_lt hl), one_S hk hl]
    by_cases e : k = l
    · rw [if_pos e, if_pos (by rw [e])]
    · rw [if_neg e, if_neg (fun h => e (up_inj h))]
  · intro l hl; rw [one_S ho (up_lt hl), if_neg (Ne.symm (up_ne _ _))]
  · intro l hl; rw [one_S (up_lt hl) ho, if_neg (up_ne _ _)]
  · rw [one_S ho ho, if_pos rfl]
  all_goals simp

/-! ### Inverse and feedback -/

theorem fb_mul_fb {a b : Aff A} {o i : ℕ} {x y : A} (hn : a.n = b.n) (ho : o < a.n) (hi : i < a.n)
    (hab : series a b = one a.n) (hx : (1 - a.S o i) * x = 1) (hx' : x * (1 - a.S o i) = 1)
    (hy : (1 - b.S i o) * y = 1) (hy' : y * (1 - b.S i o) = 1) :
    series (fb o i x a) (fb i o y b) = one (a.n - 1) := by
  have e1 : ∀ k l, k < a.n → l < a.n → ∑ m ∈ range (a.n - 1), a.S k (up i m) * b.S (up i m) l =
      (if k = l then 1 else 0) - a.S k i * b.S i l := by
    intro k l hk hl
    have := congrArg (fun c => c.S k l) hab
    simp only [series_S' hn, one_S hk hl] at this
    rw [sum_up hi] at this
    exact eq_sub_of_add_eq this
  have e2 : ∀ k, k < a.n → ∑ m ∈ range (a.n - 1), a.S k (up i m) * b.L (up i m) = - a.S k i * b.L i - a.L k := by
    intro k hk
    have := congrArg (fun c => c.L k) hab
    simp only [series_L', one_L] at this
    rw [sum_up hi] at this
    have h2 := eq_sub_of_add_eq (eq_sub_of_add_eq this)
    rw [h2]; noncomm_ring
  have e3 : ∀ l, l < a.n → ∑ m ∈ range (a.n - 1), a.R (up i m) * b.S (up i m) l = - a.R i * b.S i l - b.R l := by
    intro l hl
    have := congrArg (fun c => c.R l) hab
    simp only [series_R' hn, one_R] at this
    rw [sum_up hi, ← add_assoc] at this
    have h2 := eq_sub_of_add_eq' (eq_sub_of_add_eq this)
    rw [h2]; noncomm_ring
  have e4 : ∑ m ∈ range (a.n - 1), a.R (up i m) * b.L (up i m) = - a.R i * b.L i - a.K - b.K := by
    have := congrArg (fun c => c.K) hab
    simp only [series_K, one_K] at this
    rw [sum_up hi, ← add_assoc] at this
    have h2 := eq_sub_of_add_eq' (eq_sub_of_add_eq this)
    rw [h2]; noncomm_ring
  have hsx : x * a.S o i = x - 1 := by rw [mul_sub, mul_one] at hx'; rw [← hx']; abel
  have hsy : b.S i o * y = y - 1 := by rw [sub_mul, one_mul] at hy; rw [← hy]; abel
  -- combinators: `q` stands for an entry of column `i` (or `R i`), `t` for an entry of row `i` of `b`
  have key : ∀ q t : A, - (q * t) - q * (b.S i o * y) * t - q * (x * a.S o i) * t + q * x * y * t
      - q * (x * a.S o i) * (b.S i o * y) * t = 0 := by
    intro q t; rw [hsx, hsy]; noncomm_ring
  refine ext' (by simp) ?_ ?_ ?_ ?_
  · intro k l hk hl
    simp only [series_n, fb_n] at hk hl
    rw [series_S hk hl, one_S hk hl]
    have : ∀ m ∈ range (a.n - 1), (fb o i x a).S k m * (fb i o y b).S m l =
        a.S (up o k) (up i m) * b.S (up i m) (up o l) + (a.S (up o k) (up i m) * b.S (up i m) o) * (y * b.S i (up o l))
        + (a.S (up o k) i * x) * (a.S o (up i m) * b.S (up i m) (up o l))
        + (a.S (up o k) i * x) * (a.S o (up i m) * b.S (up i m) o) * (y * b.S i (up o l)) := by
      intro m hm
      have hm' := Finset.mem_range.mp hm
      rw [fb_S hk hm', fb_S (by omega) (by omega)]; noncomm_ring
    rw [fb_n, Finset.sum_congr rfl this]
    simp only [Finset.sum_add_distrib, ← Finset.sum_mul, ← Finset.mul_sum]
    rw [e1 _ _ (up_lt hk) (up_lt hl), e1 _ _ (up_lt hk) ho, e1 _ _ ho (up_lt hl), e1 _ _ ho ho,
      if_neg (up_ne o k), if_neg (Ne.symm (up_ne o l)), if_pos rfl]
    have hkl : (if up o k = up o l then (1 : A) else 0) = if k = l then 1 else 0 := by
      by_cases e : k = l
      · rw [if_pos e, if_pos (by rw [e])]
      · rw [if_neg e, if_neg (fun h => e (up_inj h))]
    rw [hkl]
    rw [← sub_eq_zero]
    refine Eq.trans ?_ (key (a.S (up o k) i) (b.S i (up o l)))
    noncomm_ring
  · intro k hk
    simp only [series_n, fb_n] at hk
    rw [series_L hk, one_L, fb_L hk]
    have : ∀ m ∈ range (a.n - 1), (fb o i x a).S k m * (fb i o y b).L m =
        a.S (up o k) (up i m) * b.L (up i m) + (a.S (up o k) (up i m) * b.S (up i m) o) * (y * b.L i)
        + (a.S (up o k) i * x) * (a.S o (up i m) * b.L (up i m))
        + (a.S (up o k) i * x) * (a.S o (up i m) * b.S (up i m) o) * (y * b.L i) := by
      intro m hm
      have hm' := Finset.mem_range.mp hm
      rw [fb_S hk hm', fb_L (by omega)]; noncomm_ring
    rw [fb_n, Finset.sum_congr rfl this]
    simp only [Finset.sum_add_distrib, ← Finset.sum_mul, ← Finset.mul_sum]
    rw [e2 _ (up_lt hk), e1 _ _ (up_lt hk) ho, e2 _ ho, e1 _ _ ho ho, if_neg (up_ne o k), if_pos rfl]
    refine Eq.trans ?_ (key (a.S (up o k) i) (b.L i))
    noncomm_ring
  · intro l hl
    simp only [series_n, fb_n] at hl
    rw [series_R hl, one_R, fb_R (by omega)]
    have : ∀ m ∈ range (a.n - 1), (fb o i x a).R m * (fb i o y b).S m l =
        a.R (up i m) * b.S (up i m) (up o l) + (a.R (up i m) * b.S (up i m) o) * (y * b.S i (up o l))
        + (a.R i * x) * (a.S o (up i m) * b.S (up i m) (up o l))
        + (a.R i * x) * (a.S o (up i m) * b.S (up i m) o) * (y * b.S i (up o l)) := by
      intro m hm
      have hm' := Finset.mem_range.mp hm
      rw [fb_R hm', fb_S (by omega) (by omega)]; noncomm_ring
    rw [fb_n, Finset.sum_congr rfl this]
    simp only [Finset.sum_add_distrib, ← Finset.sum_mul, ← Finset.mul_sum]
    rw [e3 _ (up_lt hl), e3 _ ho, e1 _ _ ho (up_lt hl), e1 _ _ ho ho, if_neg (Ne.symm (up_ne o l)), if_pos rfl]
    refine Eq.trans ?_ (key (a.R i) (b.S i (up o l)))
    noncomm_ring
  · rw [series_K, one_K, fb_K, fb_K]
    have : ∀ m ∈ range (a.n - 1), (fb o i x a).R m * (fb i o y b).L m =
        a.R (up i m) * b.L (up i m) + (a.R (up i m) * b.S (up i m) o) * (y * b.L i)
        + (a.R i * x) * (a.S o (up i m) * b.L (up i m))
        + (a.R i * x) * (a.S o (up i m) * b.S (up i m) o) * (y * b.L i) := by
      intro m hm
      have hm' := Finset.mem_range.mp hm
      rw [fb_R hm', fb_L (by omega)]; noncomm_ring
    rw [fb_n, Finset.sum_congr rfl this]
    simp only [Finset.sum_add_distrib, ← Finset.sum_mul, ← Finset.mul_sum]
    rw [e4, e3 _ ho, e2 _ ho, e1 _ _ ho ho, if_pos rfl]
    refine Eq.trans ?_ (key (a.R i) (b.L i))
    noncomm_ring

/-- inverses are unique -/
theorem inv_unique {a b c : Aff A} (h1 : a.n = b.n) (h2 : b.n = c.n) (hab : series a b = one a.n)
    (hbc : series b c = one b.n) : a = c := by
  rw [← series_one h1, ← hbc, ← series_assoc h1 h2, hab, one_series (by omega)]

end Aff

end QNET
