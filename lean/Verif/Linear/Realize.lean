import Verif.Linear.Thm

/-! # Physical realizability and displacement (C69) -/

namespace QNET.Linear

open Finset
open QNET.Perm (Res Err)
open QNET.QAlg (QX Ctx val SoundCtx mapVal)
open QNET.SLH (getCoeffs coeffOf)

variable {A : Type} [Ring A] [StarRing A] [Algebra ℂ A]

theorem lin_pad (m n : ℕ) (ρ : ℕ → A) (c : ℂ) (p q r s : ℕ → ℂ) : lin m 0 ρ c p q r s = lin m n ρ c p q (fun _ => 0) (fun _ => 0) := by
  simp [lin]

theorem lin_sum {ι : Type*} (t : Finset ι) (m n : ℕ) (ρ : ℕ → A) (c : ι → ℂ) (p q r s : ι → ℕ → ℂ) :
    ∑ i ∈ t, lin m n ρ (c i) (p i) (q i) (r i) (s i)
      = lin m n ρ (∑ i ∈ t, c i) (fun k => ∑ i ∈ t, p i k) (fun k => ∑ i ∈ t, q i k) (fun k => ∑ i ∈ t, r i k) (fun k => ∑ i ∈ t, s i k) := by
  simp only [lin, Finset.sum_add_distrib, Finset.sum_smul]
  rw [Finset.sum_comm (s := t) (t := range m), Finset.sum_comm (s := t) (t := range m), Finset.sum_comm (s := t) (t := range n), Finset.sum_comm (s := t) (t := range n)]

theorem bracket_lin (x : A) (m n : ℕ) (ρ : ℕ → A) (c : ℂ) (p q r s : ℕ → ℂ) :
    x * lin m n ρ c p q r s - lin m n ρ c p q r s * x
      = ∑ k ∈ range m, p k • (x * ρ (5 * k) - ρ (5 * k) * x) + ∑ k ∈ range m, q k • (x * star (ρ (5 * k)) - star (ρ (5 * k)) * x)
        + ∑ k ∈ range n, r k • (x * ρ (5 * k + 2) - ρ (5 * k + 2) * x) + ∑ k ∈ range n, s k • (x * star (ρ (5 * k + 2)) - star (ρ (5 * k + 2)) * x) := by
  simp only [lin, mul_add, add_mul, Finset.mul_sum, Finset.sum_mul, mul_smul_comm, smul_mul_assoc, mul_one, one_mul, smul_sub, Finset.sum_sub_distrib]
  abel

theorem sum_delta {m j : ℕ} (hj : j < m) (f : ℕ → ℂ) : ∑ k ∈ range m, f k • (if j = k then (1 : A) else 0) = f j • 1 := by
  rw [Finset.sum_eq_single j]
  · rw [if_pos rfl]
  · intro k _ hk; rw [if_neg (fun e => hk e.symm), smul_zero]
  · intro h; exact absurd (mem_range.mpr hj) h

theorem comm_dest {m n : ℕ} {ρ : ℕ → A} (hρ : Modes m n ρ) {j : ℕ} (hj : j < m) (c : ℂ) (p q r s : ℕ → ℂ) :
    ρ (5 * j) * lin m n ρ c p q r s - lin m n ρ c p q r s * ρ (5 * j) = q j • (1 : A) := by
  rw [bracket_lin, Finset.sum_eq_zero, Finset.sum_congr rfl (g := fun k => q k • (if j = k then (1 : A) else 0)), sum_delta hj,
    Finset.sum_eq_zero, Finset.sum_eq_zero]
  · simp
  · intro k hk
    have h := congrArg star (hρ.ba' k j (mem_range.mp hk) hj)
    simp only [star_mul, star_star] at h
    rw [h, sub_self, smul_zero]
  · intro k hk
    rw [hρ.ba k j (mem_range.mp hk) hj, sub_self, smul_zero]
  · intro k hk
    rw [hρ.ccr j k hj (mem_range.mp hk)]
  · intro k hk
    rw [hρ.aa j k hj (mem_range.mp hk), sub_self, smul_zero]

theorem comm_crea [StarModule ℂ A] {m n : ℕ} {ρ : ℕ → A} (hρ : Modes m n ρ) {j : ℕ} (hj : j < m) (c : ℂ) (p q r s : ℕ → ℂ) :
    star (ρ (5 * j)) * lin m n ρ c p q r s - lin m n ρ c p q r s * star (ρ (5 * j)) = -(p j • (1 : A)) := by
  have h := congrArg star (comm_dest hρ hj (star c) (fun k => star (q k)) (fun k => star (p k)) (fun k => star (s k)) (fun k => star (r k)))
  rw [star_sub, star_mul, star_mul, lin_star, star_smul, star_one] at h
  simp only [star_star] at h
  rw [← h]
  abel

/-- the equation of motion of a mode of a linear system -/
theorem eom_lin [StarModule ℂ A] {m : ℕ} {ρ : ℕ → A} {T : SLH A} (hρ : Modes m T.n ρ) {u : ℕ → ℕ → ℂ} (hS : ∀ i j, i < T.n → j < T.n → T.S i j = u i j • (1 : A))
    {c : ℕ → ℂ} {p q : ℕ → ℕ → ℂ} (hL : ∀ i, i < T.n → T.L i = lin m 0 ρ (c i) (p i) (q i) (fun _ => 0) (fun _ => 0)) {j : ℕ} (hj : j < m)
    {ν : ℂ} {M N : ℕ → ℂ} (hH : Complex.I • (T.H * ρ (5 * j) - ρ (5 * j) * T.H) = lin m 0 ρ ν M N (fun _ => 0) (fun _ => 0)) :
    SLH.heisenbergNoise T false (ρ (5 * j)) (fun k => ρ (5 * k + 2))
      = lin m T.n ρ (ν + ∑ k ∈ range T.n, (1 / 2 : ℂ) * (q k j * star (c k) - star (p k j) * c k)) (fun l => M l + ∑ k ∈ range T.n, (1 / 2 : ℂ) * (q k j * star (q k l) - star (p k j) * p k l))
        (fun l => N l + ∑ k ∈ range T.n, (1 / 2 : ℂ) * (q k j * star (p k l) - star (p k j) * q k l))
        (fun l => -∑ k ∈ range T.n, star (p k j) * u k l) (fun l => ∑ k ∈ range T.n, star (u k l) * q k j) := by
  have h1 : ∀ k, k < T.n → ρ (5 * j) * T.L k - T.L k * ρ (5 * j) = q k j • (1 : A) := by
    intro k hk
    rw [hL k hk, lin_pad m T.n]
    exact comm_dest hρ hj _ _ _ _ _
  have h2 : ∀ k, k < T.n → star (T.L k) * ρ (5 * j) - ρ (5 * j) * star (T.L k) = -(star (p k j) • (1 : A)) := by
    intro k hk
    have := comm_dest hρ hj (star (c k)) (fun l => star (q k l)) (fun l => star (p k l)) (fun _ => star 0) (fun _ => star 0)
    rw [hL k hk, lin_pad m T.n, lin_star, ← this, neg_sub]
  unfold SLH.heisenbergNoise SLH.heisenberg
  simp only [Bool.false_eq_true, if_false, add_zero]
  have d : ∀ k ∈ range T.n, star (T.L k) * ρ (5 * j) * T.L k + -((1 / 2 : ℂ) • (star (T.L k) * T.L k * ρ (5 * j) + ρ (5 * j) * star (T.L k) * T.L k))
      = (1 / 2 : ℂ) • (q k j • star (T.L k) - star (p k j) • T.L k) := by
    intro k hk
    have e1 := congrArg (fun x => star (T.L k) * x) (h1 k (mem_range.mp hk))
    have e2 := congrArg (fun x => x * T.L k) (h2 k (mem_range.mp hk))
    simp only [mul_smul_comm, mul_one, neg_mul, smul_mul_assoc, one_mul] at e1 e2
    rw [sub_eq_add_neg (q k j • _), ← e1, ← e2]
    simp only [mul_sub, sub_mul, mul_assoc]
    module
  have n1 : ∀ k ∈ range T.n, (∑ i ∈ range T.n, star (ρ (5 * i + 2)) * star (T.S k i)) * (ρ (5 * j) * T.L k - T.L k * ρ (5 * j))
      = lin m T.n ρ 0 (fun _ => 0) (fun _ => 0) (fun _ => 0) (fun l => star (u k l) * q k j) := by
    intro k hk
    rw [h1 k (mem_range.mp hk), Finset.sum_congr rfl (g := fun i => star (u k i) • star (ρ (5 * i + 2)))]
    · simp [lin, Finset.smul_sum, smul_smul, mul_comm]
    · intro i hi
      rw [hS k i (mem_range.mp hk) (mem_range.mp hi), star_smul, star_one, mul_smul_comm, mul_one]
  have n2 : ∑ l ∈ range T.n, (∑ i ∈ range T.n, (star (T.L i) * ρ (5 * j) - ρ (5 * j) * star (T.L i)) * T.S i l) * ρ (5 * l + 2)
      = lin m T.n ρ 0 (fun _ => 0) (fun _ => 0) (fun l => -∑ k ∈ range T.n, star (p k j) * u k l) (fun _ => 0) := by
    simp only [lin, zero_smul, Finset.sum_const_zero, zero_add, add_zero]
    refine Finset.sum_congr rfl (fun l hl => ?_)
    rw [Finset.sum_congr rfl (g := fun i => -((star (p i j) * u i l) • (1 : A)))]
    · rw [Finset.sum_neg_distrib, ← Finset.sum_smul, neg_mul, smul_mul_assoc, one_mul, neg_smul]
    · intro i hi
      rw [h2 i (mem_range.mp hi), hS i l (mem_range.mp hi) (mem_range.mp hl), neg_mul, smul_mul_smul_comm, mul_one]
  have e3 : ∀ k ∈ range T.n, (1 / 2 : ℂ) • (q k j • star (T.L k) - star (p k j) • T.L k)
      = lin m T.n ρ ((1 / 2 : ℂ) * (q k j * star (c k) - star (p k j) * c k)) (fun l => (1 / 2 : ℂ) * (q k j * star (q k l) - star (p k j) * p k l))
        (fun l => (1 / 2 : ℂ) * (q k j * star (p k l) - star (p k j) * q k l)) (fun _ => 0) (fun _ => 0) := by
    intro k hk
    rw [hL k (mem_range.mp hk), lin_pad m T.n, lin_star, ← lin_smul, ← lin_smul, ← lin_sub, ← lin_smul]
    simp
  rw [Finset.sum_congr rfl d, Finset.sum_congr rfl e3, Finset.sum_congr rfl n1, n2, hH, lin_pad m T.n, lin_sum, lin_sum, ← lin_add, ← lin_add, ← lin_add]
  simp

/-- the Jacobi identity for a Hamiltonian that is quadratic in the modes -/
theorem hamilton_coef [StarModule ℂ A] {m n : ℕ} {ρ : ℕ → A} (hρ : Modes m n ρ) (hI : Indep m n ρ) {H : A} (hH : star H = H) {ν : ℕ → ℂ} {M N : ℕ → ℕ → ℂ}
    (h : ∀ j, j < m → Complex.I • (H * ρ (5 * j) - ρ (5 * j) * H) = lin m n ρ (ν j) (M j) (N j) (fun _ => 0) (fun _ => 0)) (j l : ℕ) (hj : j < m) (hl : l < m) :
    M j l + star (M l j) = 0 ∧ N j l = N l j := by
  have h1 : ∀ z : ℂ, z • (1 : A) = 0 → z = 0 := by
    intro z hz
    refine (hI z (fun _ => 0) (fun _ => 0) (fun _ => 0) (fun _ => 0) ?_).1
    simp [hz]
  have hs : Complex.I • (H * star (ρ (5 * l)) - star (ρ (5 * l)) * H) = star (lin m n ρ (ν l) (M l) (N l) (fun _ => 0) (fun _ => 0)) := by
    rw [← h l hl, star_smul, star_sub, star_mul, star_mul, hH, Complex.star_def, Complex.conj_I, neg_smul, ← smul_neg, neg_sub]
  constructor
  · apply h1
    have e1 := comm_crea hρ hl (ν j) (M j) (N j) (fun _ => 0) (fun _ => 0)
    have e2 := comm_dest hρ hj (star (ν l)) (fun k => star (N l k)) (fun k => star (M l k)) (fun _ => star 0) (fun _ => star 0)
    rw [← h j hj] at e1
    rw [← lin_star, ← hs] at e2
    have e3 := hρ.ccr j l hj hl
    rw [add_smul, ← e2, ← neg_neg (M j l • (1 : A)), ← e1]
    have : H * (if j = l then (1 : A) else 0) - (if j = l then (1 : A) else 0) * H = 0 := by split <;> simp
    rw [← e3] at this
    simp only [mul_smul_comm, smul_mul_assoc, ← smul_sub, ← smul_neg, ← smul_add]
    rw [show ∀ x : A, x = 0 → Complex.I • x = 0 from fun x hx => by rw [hx, smul_zero]]
    rw [← this]
    noncomm_ring
  · apply sub_eq_zero.mp
    apply h1
    have e1 := comm_dest hρ hl (ν j) (M j) (N j) (fun _ => 0) (fun _ => 0)
    have e2 := comm_dest hρ hj (ν l) (M l) (N l) (fun _ => 0) (fun _ => 0)
    rw [← h j hj] at e1
    rw [← h l hl] at e2
    have e3 := hρ.aa j l hj hl
    rw [sub_smul, ← e1, ← e2]
    have : H * (ρ (5 * j) * ρ (5 * l) - ρ (5 * l) * ρ (5 * j)) - (ρ (5 * j) * ρ (5 * l) - ρ (5 * l) * ρ (5 * j)) * H = 0 := by rw [e3]; simp
    simp only [mul_smul_comm, smul_mul_assoc, ← smul_sub]
    rw [show ∀ x : A, x = 0 → Complex.I • x = 0 from fun x hx => by rw [hx, smul_zero]]
    rw [← neg_eq_zero, ← this]
    noncomm_ring

/-! ### Blocks -/

theorem sum_uu {n : ℕ} {u : ℕ → ℕ → ℂ} (hu : ∀ i l, i < n → l < n → ∑ k ∈ range n, u i k * star (u l k) = if i = l then 1 else 0) (x y : ℕ → ℂ) :
    ∑ k ∈ range n, (∑ i ∈ range n, x i * u i k) * (∑ i ∈ range n, y i * star (u i k)) = ∑ i ∈ range n, x i * y i := by
  have h : ∀ k ∈ range n, (∑ i ∈ range n, x i * u i k) * (∑ i ∈ range n, y i * star (u i k))
      = ∑ i ∈ range n, ∑ l ∈ range n, x i * y l * (u i k * star (u l k)) := by
    intro k _
    rw [Finset.sum_mul_sum]
    exact Finset.sum_congr rfl (fun i _ => Finset.sum_congr rfl (fun l _ => by ring))
  rw [Finset.sum_congr rfl h, Finset.sum_comm]
  refine Finset.sum_congr rfl (fun i hi => ?_)
  rw [Finset.sum_comm, Finset.sum_eq_single i]
  · rw [← Finset.mul_sum, hu i i (mem_range.mp hi) (mem_range.mp hi), if_pos rfl, mul_one]
  · intro l hl hne
    rw [← Finset.mul_sum, hu i l (mem_range.mp hi) (mem_range.mp hl), if_neg (fun e => hne e.symm), mul_zero]
  · intro h; exact absurd hi h

theorem J_1 {r i : ℕ} (h : i < r) : J r i = 1 := by simp [J, h]
theorem J_2 {r i : ℕ} : J r (i + r) = -1 := by simp [J]

/-- `B J B†` in terms of the blocks -/
theorem bjb {m n : ℕ} (pB qB : ℕ → ℕ → ℂ) (i k : ℕ) :
    ∑ l ∈ range (2 * n), blk m n pB qB i l * J n l * star (blk m n pB qB k l)
      = ∑ l ∈ range n, blk m n pB qB i l * star (blk m n pB qB k l) - ∑ l ∈ range n, blk m n pB qB i (l + n) * star (blk m n pB qB k (l + n)) := by
  rw [sum_two, sub_eq_add_neg, ← Finset.sum_neg_distrib]
  congr 1
  · exact Finset.sum_congr rfl (fun l hl => by rw [J_1 (mem_range.mp hl), mul_one])
  · exact Finset.sum_congr rfl (fun l _ => by rw [J_2]; ring)

section
variable {m n : ℕ} {u p q M N pA qA pB qB : ℕ → ℕ → ℂ}
  (hu : ∀ i l, i < n → l < n → ∑ k ∈ range n, u i k * star (u l k) = if i = l then 1 else 0)
  (hpB : ∀ j l, j < m → l < n → pB j l = -∑ k ∈ range n, star (p k j) * u k l)
  (hqB : ∀ j l, j < m → l < n → qB j l = ∑ k ∈ range n, star (u k l) * q k j)
include hu hpB hqB

theorem pp_sum (j l : ℕ) (hj : j < m) (hl : l < m) : ∑ k ∈ range n, pB j k * star (pB l k) = ∑ i ∈ range n, star (p i j) * p i l := by
  rw [← sum_uu hu (fun i => star (p i j)) (fun i => p i l)]
  refine Finset.sum_congr rfl (fun k hk => ?_)
  rw [hpB j k hj (mem_range.mp hk), hpB l k hl (mem_range.mp hk), star_neg, neg_mul_neg, star_sum]
  simp only [star_mul', star_star]

theorem qq_sum (j l : ℕ) (hj : j < m) (hl : l < m) : ∑ k ∈ range n, qB j k * star (qB l k) = ∑ i ∈ range n, q i j * star (q i l) := by
  rw [Finset.sum_congr rfl (fun i _ => mul_comm (q i j) (star (q i l))), ← sum_uu hu (fun i => star (q i l)) (fun i => q i j)]
  refine Finset.sum_congr rfl (fun k hk => ?_)
  rw [hqB j k hj (mem_range.mp hk), hqB l k hl (mem_range.mp hk), mul_comm, star_sum]
  congr 1
  · exact Finset.sum_congr rfl (fun i _ => by rw [star_mul', star_star, mul_comm])
  · exact Finset.sum_congr rfl (fun i _ => mul_comm _ _)

theorem pq_sum (j l : ℕ) (hj : j < m) (hl : l < m) : ∑ k ∈ range n, pB j k * qB l k = -∑ i ∈ range n, star (p i j) * q i l := by
  rw [← sum_uu hu (fun i => star (p i j)) (fun i => q i l), ← Finset.sum_neg_distrib]
  refine Finset.sum_congr rfl (fun k hk => ?_)
  rw [hpB j k hj (mem_range.mp hk), hqB l k hl (mem_range.mp hk), neg_mul]
  congr 2
  exact Finset.sum_congr rfl (fun i _ => mul_comm _ _)

theorem realize_A
    (hM : ∀ j l, j < m → l < m → M j l + star (M l j) = 0) (hN : ∀ j l, j < m → l < m → N j l = N l j)
    (hpA : ∀ j l, j < m → l < m → pA j l = M j l + ∑ k ∈ range n, (1 / 2 : ℂ) * (q k j * star (q k l) - star (p k j) * p k l))
    (hqA : ∀ j l, j < m → l < m → qA j l = N j l + ∑ k ∈ range n, (1 / 2 : ℂ) * (q k j * star (p k l) - star (p k j) * q k l))
    (i k : ℕ) (hi : i < 2 * m) (hk : k < 2 * m) :
    blk m m pA qA i k * J m k + J m i * star (blk m m pA qA k i) + ∑ l ∈ range (2 * n), blk m n pB qB i l * J n l * star (blk m n pB qB k l) = 0 := by
  have star_half : (starRingEnd ℂ) (1 / 2 : ℂ) = 1 / 2 := by rw [map_div₀, map_one, map_ofNat]
  have h11 : ∀ j l, j < m → l < m → pA j l + star (pA l j) + (∑ k ∈ range n, pB j k * star (pB l k) - ∑ k ∈ range n, qB j k * star (qB l k)) = 0 := by
    intro j l hj hl
    rw [pp_sum hu hpB hqB j l hj hl, qq_sum hu hpB hqB j l hj hl, hpA j l hj hl, hpA l j hl hj, star_add, star_sum]
    have e : ∀ x y : ℂ, M j l + x + (star (M l j) + y) = x + y := fun x y => by rw [add_add_add_comm, hM j l hj hl, zero_add]
    rw [e, ← Finset.sum_sub_distrib, ← Finset.sum_add_distrib, ← Finset.sum_add_distrib]
    refine Finset.sum_eq_zero (fun k _ => ?_)
    simp only [star_mul', star_sub, Complex.star_def, star_half, Complex.conj_conj]
    ring
  have h12 : ∀ j l, j < m → l < m → -qA j l + qA l j + (∑ k ∈ range n, pB j k * qB l k - ∑ k ∈ range n, qB j k * pB l k) = 0 := by
    intro j l hj hl
    rw [Finset.sum_congr rfl (fun k _ => mul_comm (qB j k) (pB l k)), pq_sum hu hpB hqB j l hj hl, pq_sum hu hpB hqB l j hl hj, hqA j l hj hl, hqA l j hl hj, hN j l hj hl]
    have e : ∀ x y z w : ℂ, -(N l j + x) + (N l j + y) + (-z - -w) = -x + y - z + w := fun x y z w => by ring
    rw [e, ← Finset.sum_neg_distrib, ← Finset.sum_add_distrib, ← Finset.sum_sub_distrib, ← Finset.sum_add_distrib]
    exact Finset.sum_eq_zero (fun k _ => by ring)
  rw [bjb]
  by_cases h1 : i < m <;> by_cases h2 : k < m
  · rw [J_1 h1, J_1 h2, blk_11 h1 h2, blk_11 h2 h1, mul_one, one_mul, ← h11 i k h1 h2]
    congr 2
    · exact Finset.sum_congr rfl (fun l hl => by rw [blk_11 h1 (mem_range.mp hl), blk_11 h2 (mem_range.mp hl)])
    · exact Finset.sum_congr rfl (fun l hl => by rw [blk_12 h1, blk_12 h2])
  · obtain ⟨k, rfl⟩ : ∃ k', k = k' + m := ⟨k - m, by omega⟩
    have h2 : k < m := by omega
    rw [J_1 h1, J_2, blk_12 h1, blk_21 h1, star_star, one_mul, mul_neg_one, ← h12 i k h1 h2]
    congr 2
    · exact Finset.sum_congr rfl (fun l hl => by rw [blk_11 h1 (mem_range.mp hl), blk_21 (mem_range.mp hl), star_star])
    · exact Finset.sum_congr rfl (fun l hl => by rw [blk_12 h1, blk_22, star_star])
  · obtain ⟨i, rfl⟩ : ∃ k', i = k' + m := ⟨i - m, by omega⟩
    have h1 : i < m := by omega
    rw [J_1 h2, J_2, blk_12 h2, blk_21 h2, mul_one, neg_one_mul, ← star_zero ℂ, ← h12 k i h2 h1]
    simp only [star_add, star_neg, star_sub, star_sum]
    rw [Finset.sum_congr rfl (fun l hl => by rw [blk_21 (mem_range.mp hl), blk_11 h2 (mem_range.mp hl), star_mul', mul_comm] :
        ∀ l ∈ range n, blk m n pB qB (i + m) l * star (blk m n pB qB k l) = star (pB k l * qB i l)),
      Finset.sum_congr rfl (fun l hl => by rw [blk_22, blk_12 h2, star_mul', mul_comm] :
        ∀ l ∈ range n, blk m n pB qB (i + m) (l + n) * star (blk m n pB qB k (l + n)) = star (qB k l * pB i l))]
    ring
  · obtain ⟨i, rfl⟩ : ∃ k', i = k' + m := ⟨i - m, by omega⟩
    obtain ⟨k, rfl⟩ : ∃ k', k = k' + m := ⟨k - m, by omega⟩
    have h1 : i < m := by omega
    have h2 : k < m := by omega
    rw [J_2, J_2, blk_22, blk_22, star_star, mul_neg_one, neg_one_mul, ← neg_zero, ← star_zero ℂ, ← h11 i k h1 h2]
    simp only [star_add, star_sub, star_sum, star_star]
    rw [Finset.sum_congr rfl (fun l hl => by rw [blk_21 (mem_range.mp hl), blk_21 (mem_range.mp hl), star_mul'] :
        ∀ l ∈ range n, blk m n pB qB (i + m) l * star (blk m n pB qB (k + m) l) = star (qB i l * star (qB k l))),
      Finset.sum_congr rfl (fun l hl => by rw [blk_22, blk_22, star_mul'] :
        ∀ l ∈ range n, blk m n pB qB (i + m) (l + n) * star (blk m n pB qB (k + m) (l + n)) = star (pB i l * star (pB k l)))]
    ring

theorem realize_C (i k : ℕ) (hi : i < 2 * m) (hk : k < 2 * n) :
    J m i * star (blk n m p q k i) + ∑ l ∈ range (2 * n), blk m n pB qB i l * J n l * star (blk n n u (fun _ _ => 0) k l) = 0 := by
  have h1 : ∀ j k, j < m → k < n → ∑ l ∈ range n, pB j l * star (u k l) = -star (p k j) := by
    intro j k hj hk
    have := sum_uu hu (fun i => star (p i j)) (fun i => if i = k then 1 else 0)
    simp only [ite_mul, one_mul, zero_mul, mul_ite, mul_one, mul_zero, Finset.sum_ite_eq', mem_range, hk, if_true] at this
    rw [← this, ← Finset.sum_neg_distrib]
    refine Finset.sum_congr rfl (fun l hl => ?_)
    rw [hpB j l hj (mem_range.mp hl), neg_mul]
  have h2 : ∀ j k, j < m → k < n → ∑ l ∈ range n, qB j l * u k l = q k j := by
    intro j k hj hk
    have := sum_uu hu (fun i => if i = k then 1 else 0) (fun i => q i j)
    simp only [ite_mul, one_mul, zero_mul, Finset.sum_ite_eq', mem_range, hk, if_true] at this
    rw [← this]
    refine Finset.sum_congr rfl (fun l hl => ?_)
    rw [hqB j l hj (mem_range.mp hl), mul_comm]
    congr 1
    exact Finset.sum_congr rfl (fun i _ => mul_comm _ _)
  have z : ∀ f : ℕ → ℂ, ∑ l ∈ range n, f l * star (0 : ℂ) = 0 := fun f => by simp
  rw [sum_two]
  by_cases h3 : i < m <;> by_cases h4 : k < n
  · rw [J_1 h3, one_mul, blk_11 h4 h3]
    simp only [blk_12 h4, z, add_zero]
    rw [← add_neg_cancel (star (p k i)), ← h1 i k h3 h4]
    congr 1
    exact Finset.sum_congr rfl (fun l hl => by rw [blk_11 h3 (mem_range.mp hl), J_1 (mem_range.mp hl), blk_11 h4 (mem_range.mp hl), mul_one])
  · obtain ⟨k, rfl⟩ : ∃ k', k = k' + n := ⟨k - n, by omega⟩
    have h4 : k < n := by omega
    rw [J_1 h3, one_mul, blk_21 h3, star_star]
    rw [Finset.sum_eq_zero (s := range n) (f := fun l => blk m n pB qB i l * J n l * star (blk n n u (fun _ _ => 0) (k + n) l))
      (fun l hl => by rw [blk_21 (r := n) (i := k) (mem_range.mp hl)]; simp), zero_add]
    simp only [blk_22, star_star, blk_12 h3, J_2]
    rw [Finset.sum_congr rfl (fun l _ => by ring : ∀ l ∈ range n, qB i l * -1 * u k l = -(qB i l * u k l)), Finset.sum_neg_distrib, h2 i k h3 h4, add_neg_cancel]
  · obtain ⟨i, rfl⟩ : ∃ k', i = k' + m := ⟨i - m, by omega⟩
    have h3 : i < m := by omega
    rw [J_2, blk_12 h4]
    simp only [blk_12 h4, z, add_zero]
    rw [neg_one_mul, Finset.sum_congr rfl (g := fun l => star (qB i l * u k l)), ← star_sum, h2 i k h3 h4, neg_add_cancel]
    intro l hl
    rw [blk_21 (mem_range.mp hl), J_1 (mem_range.mp hl), blk_11 h4 (mem_range.mp hl), mul_one, star_mul']
  · obtain ⟨i, rfl⟩ : ∃ k', i = k' + m := ⟨i - m, by omega⟩
    obtain ⟨k, rfl⟩ : ∃ k', k = k' + n := ⟨k - n, by omega⟩
    have h3 : i < m := by omega
    have h4 : k < n := by omega
    rw [J_2, blk_22, star_star]
    rw [Finset.sum_eq_zero (s := range n) (f := fun l => blk m n pB qB (i + m) l * J n l * star (blk n n u (fun _ _ => 0) (k + n) l))
      (fun l hl => by rw [blk_21 (r := n) (i := k) (mem_range.mp hl)]; simp), zero_add]
    simp only [blk_22, star_star, J_2]
    rw [Finset.sum_congr rfl (g := fun l => -star (pB i l * star (u k l))), Finset.sum_neg_distrib, ← star_sum, h1 i k h3 h4]
    · simp
    · intro l _
      rw [star_mul', star_star]
      ring

omit hpB hqB in
theorem realize_D (i k : ℕ) (hi : i < 2 * n) (hk : k < 2 * n) :
    ∑ l ∈ range (2 * n), blk n n u (fun _ _ => 0) i l * J n l * star (blk n n u (fun _ _ => 0) k l) = if i = k then J n i else 0 := by
  rw [bjb]
  have e1 : ∀ l ∈ range n, blk n n u (fun _ _ => 0) i l = if i < n then u i l else 0 := by
    intro l hl; unfold blk; rw [if_pos (mem_range.mp hl), if_pos (mem_range.mp hl), star_zero]
  have e2 : ∀ l ∈ range n, blk n n u (fun _ _ => 0) i (l + n) = if i < n then 0 else star (u (i - n) l) := by
    intro l _; by_cases h : i < n <;> simp [blk, h]
  have e3 : ∀ l ∈ range n, blk n n u (fun _ _ => 0) k l = if k < n then u k l else 0 := by
    intro l hl; unfold blk; rw [if_pos (mem_range.mp hl), if_pos (mem_range.mp hl), star_zero]
  have e4 : ∀ l ∈ range n, blk n n u (fun _ _ => 0) k (l + n) = if k < n then 0 else star (u (k - n) l) := by
    intro l _; by_cases h : k < n <;> simp [blk, h]
  rw [Finset.sum_congr rfl (fun l hl => by rw [e1 l hl, e3 l hl]), Finset.sum_congr rfl (fun l hl => by rw [e2 l hl, e4 l hl] :
    ∀ l ∈ range n, blk n n u (fun _ _ => 0) i (l + n) * star (blk n n u (fun _ _ => 0) k (l + n)) = (if i < n then 0 else star (u (i - n) l)) * star (if k < n then 0 else star (u (k - n) l)))]
  by_cases h1 : i < n <;> by_cases h2 : k < n
  · simp only [h1, h2, if_true, zero_mul, Finset.sum_const_zero, sub_zero, J]
    rw [hu i k h1 h2]
  · simp only [h1, h2, if_true, if_false, zero_mul, Finset.sum_const_zero, sub_zero, star_zero, mul_zero]
    rw [if_neg (by omega)]
  · simp only [h1, h2, if_true, if_false, zero_mul, Finset.sum_const_zero, sub_zero, star_zero, mul_zero]
    rw [if_neg (by omega)]
  · simp only [h1, h2, if_false, zero_mul, Finset.sum_const_zero, zero_sub, star_star, J]
    have := hu (k - n) (i - n) (by omega) (by omega)
    rw [Finset.sum_congr rfl (fun l _ => mul_comm (star (u (i - n) l)) (u (k - n) l)), this]
    by_cases h : i = k
    · subst h; simp
    · rw [if_neg h, if_neg (by omega), neg_zero]

end

end QNET.Linear
