import Mathlib.Analysis.CStarAlgebra.ContinuousFunctionalCalculus.Order
import Mathlib.Analysis.SpecialFunctions.Exponential
import Mathlib.Analysis.Calculus.MeanValue

/-! # Dissipative generators in a C*-algebra -/

namespace QNET.Adiabatic

open Filter Topology NormedSpace

variable {A : Type} [CStarAlgebra A]

theorem norm_one_sub_le {P : A} (hP : ∃ (n : ℕ) (X : ℕ → A), P = ∑ i ∈ Finset.range n, star (X i) * X i) {e : ℝ} (he : 0 ≤ e) (h : e * ‖P‖ ≤ 1) :
    ‖(1 : A) - e • P‖ ≤ 1 := by
  let _ := CStarAlgebra.spectralOrder A
  have _ := CStarAlgebra.spectralOrderedRing A
  obtain ⟨n, X, rfl⟩ := hP
  have h0 : (0 : A) ≤ ∑ i ∈ Finset.range n, star (X i) * X i := Finset.sum_nonneg fun i _ => star_mul_self_nonneg _
  have h1 : (0 : A) ≤ e • ∑ i ∈ Finset.range n, star (X i) * X i := smul_nonneg he h0
  have h2 : e • ∑ i ∈ Finset.range n, star (X i) * X i ≤ 1 := by
    rw [← CStarAlgebra.norm_le_one_iff_of_nonneg _ h1, norm_smul, Real.norm_eq_abs, abs_of_nonneg he]
    exact h
  rw [CStarAlgebra.norm_le_one_iff_of_nonneg _ (sub_nonneg.mpr h2)]
  exact sub_le_self _ h1

/-- The Euler step of a dissipative generator is a contraction up to second order. -/
theorem norm_euler {G P : A} (hP : ∃ (n : ℕ) (X : ℕ → A), P = ∑ i ∈ Finset.range n, star (X i) * X i) (hG : G + star G = -P) {e : ℝ} (he : 0 ≤ e)
    (h : e * ‖P‖ ≤ 1) : ‖(1 : A) + e • G‖ ≤ 1 + e ^ 2 * ‖G‖ ^ 2 := by
  have e1 : star (1 + e • G) * (1 + e • G) = (1 - e • P) + (e ^ 2) • (star G * G) := by
    have : P = -(G + star G) := by rw [hG, neg_neg]
    rw [this, star_add, star_one, star_smul, star_trivial]
    simp only [add_mul, mul_add, one_mul, mul_one, smul_mul_assoc, mul_smul_comm, smul_neg, smul_add, pow_two, smul_smul]
    abel
  have e2 : ‖(1 : A) + e • G‖ * ‖(1 : A) + e • G‖ ≤ 1 + e ^ 2 * ‖G‖ ^ 2 := by
    rw [← CStarRing.norm_star_mul_self, e1]
    refine (norm_add_le _ _).trans (add_le_add (norm_one_sub_le hP he h) ?_)
    rw [norm_smul, Real.norm_eq_abs, abs_of_nonneg (by positivity), CStarRing.norm_star_mul_self, ← pow_two]
  by_contra hc
  push Not at hc
  have h1 : 1 ≤ 1 + e ^ 2 * ‖G‖ ^ 2 := by nlinarith [sq_nonneg (e * ‖G‖)]
  nlinarith

/-- A dissipative generator generates contractions. -/
theorem norm_exp_le_one {G P : A} (hP : ∃ (n : ℕ) (X : ℕ → A), P = ∑ i ∈ Finset.range n, star (X i) * X i) (hG : G + star G = -P) {t : ℝ} (ht : 0 ≤ t) :
    ‖exp (t • G)‖ ≤ 1 := by
  have key : ∀ η : ℝ, 0 < η → ‖exp (t • G)‖ ≤ Real.exp (η * t) := by
    intro η hη
    have hd : HasDerivAt (fun u : ℝ => exp (u • G)) G 0 := by
      have := hasDerivAt_exp_smul_const (𝕂 := ℝ) G 0
      simpa using this
    have ho := hd.isLittleO
    rw [Asymptotics.isLittleO_iff] at ho
    have h1 := ho (half_pos hη)
    have h2 : ∀ᶠ u : ℝ in 𝓝 0, u * ‖P‖ ≤ 1 := by
      have : Tendsto (fun u : ℝ => u * ‖P‖) (𝓝 0) (𝓝 (0 * ‖P‖)) := tendsto_id.mul_const _
      rw [zero_mul] at this
      exact (this.eventually (gt_mem_nhds (zero_lt_one))).mono fun _ h => le_of_lt h
    have h3 : ∀ᶠ u : ℝ in 𝓝 0, u * ‖G‖ ^ 2 ≤ η / 2 := by
      have : Tendsto (fun u : ℝ => u * ‖G‖ ^ 2) (𝓝 0) (𝓝 (0 * ‖G‖ ^ 2)) := tendsto_id.mul_const _
      rw [zero_mul] at this
      exact (this.eventually (gt_mem_nhds (half_pos hη))).mono fun _ h => le_of_lt h
    have h4 := (h1.and (h2.and h3))
    have h5 : Tendsto (fun n : ℕ => t / ((n : ℝ) + 1)) atTop (𝓝 0) := by
      have := tendsto_one_div_add_atTop_nhds_zero_nat (𝕜 := ℝ)
      have h := this.const_mul t
      simpa [div_eq_mul_inv] using h
    obtain ⟨n, hn1, hn2, hn3⟩ := (h5.eventually h4).exists
    set u := t / ((n : ℝ) + 1) with hu
    have hn0 : (0 : ℝ) < (n : ℝ) + 1 := by positivity
    have hu0 : 0 ≤ u := div_nonneg ht hn0.le
    have hb : ‖exp (u • G)‖ ≤ 1 + η * u := by
      have e1 : ‖exp (u • G)‖ ≤ ‖exp (u • G) - exp ((0 : ℝ) • G) - (u - 0) • G‖ + ‖(1 : A) + u • G‖ := by
        have : exp (u • G) = (exp (u • G) - exp ((0 : ℝ) • G) - (u - 0) • G) + (1 + u • G) := by
          rw [zero_smul, exp_zero, sub_zero]; abel
        conv_lhs => rw [this]
        exact norm_add_le _ _
      have e2 := norm_euler hP hG hu0 hn2
      rw [sub_zero, Real.norm_eq_abs, abs_of_nonneg hu0] at hn1
      rw [sub_zero] at e1
      have e3 : u ^ 2 * ‖G‖ ^ 2 ≤ η / 2 * u := by nlinarith
      linarith
    have hexp : exp (t • G) = exp (u • G) ^ (n + 1) := by
      let _ : NormedAlgebra ℚ A := NormedAlgebra.restrictScalars ℚ ℝ A
      rw [← exp_nsmul]
      congr 1
      rw [← Nat.cast_smul_eq_nsmul ℝ, smul_smul]
      congr 1
      rw [hu]
      push_cast
      field_simp
    rw [hexp]
    calc ‖exp (u • G) ^ (n + 1)‖ ≤ ‖exp (u • G)‖ ^ (n + 1) := norm_pow_le' _ (Nat.succ_pos _)
      _ ≤ (1 + η * u) ^ (n + 1) := pow_le_pow_left₀ (norm_nonneg _) hb _
      _ ≤ (Real.exp (η * u)) ^ (n + 1) := pow_le_pow_left₀ (by positivity) (by linarith [Real.add_one_le_exp (η * u)]) _
      _ = Real.exp (η * t) := by
        rw [← Real.exp_nat_mul]
        congr 1
        rw [hu]
        push_cast
        field_simp
  have hlim : Tendsto (fun η : ℝ => Real.exp (η * t)) (𝓝[>] 0) (𝓝 1) := by
    have : Tendsto (fun η : ℝ => Real.exp (η * t)) (𝓝 0) (𝓝 (Real.exp (0 * t))) :=
      (Real.continuous_exp.comp (continuous_id.mul continuous_const)).tendsto 0
    rw [zero_mul, Real.exp_zero] at this
    exact this.mono_left nhdsWithin_le_nhds
  exact ge_of_tendsto hlim (eventually_mem_nhdsWithin.mono fun η hη => key η hη)

/-- bounded growth -/
theorem norm_exp_le {G P : A} {c : ℝ} (hP : ∃ (n : ℕ) (X : ℕ → A), P = ∑ i ∈ Finset.range n, star (X i) * X i)
    (hG : G + star G = -P + (2 * c) • (1 : A)) {t : ℝ} (ht : 0 ≤ t) : ‖exp (t • G)‖ ≤ ‖exp ((t * c) • (1 : A))‖ := by
  have h1 : (G - c • (1 : A)) + star (G - c • (1 : A)) = -P := by
    rw [two_mul, add_smul] at hG
    rw [star_sub, star_smul, star_trivial c, star_one]
    rw [show G - c • (1 : A) + (star G - c • (1 : A)) = (G + star G) - (c • (1 : A) + c • (1 : A)) by abel, hG]
    abel
  have h2 : t • G = t • (G - c • (1 : A)) + (t * c) • (1 : A) := by rw [smul_sub, smul_smul, sub_add_cancel]
  have hc : Commute (t • (G - c • (1 : A))) ((t * c) • (1 : A)) := (Commute.one_right _).smul_right _
  let _ : NormedAlgebra ℚ A := NormedAlgebra.restrictScalars ℚ ℝ A
  rw [h2, exp_add_of_commute hc]
  refine (norm_mul_le _ _).trans ?_
  have := norm_exp_le_one hP h1 ht
  nlinarith [norm_nonneg (exp ((t * c) • (1 : A)))]

/-- The Trotter-Kurtz argument: convergence of the generators on approximating vectors and uniform bounds give convergence of the semigroups. -/
theorem trotter {Gk Vk : ℝ → A} {G P0 : A} {t M : ℝ} (ht : 0 ≤ t) (hM : ∀ᶠ k in atTop, ∀ s, 0 ≤ s → s ≤ t → ‖exp (s • Gk k)‖ ≤ M)
    (hV : Tendsto Vk atTop (𝓝 P0)) (hGV : Tendsto (fun k => Gk k * Vk k) atTop (𝓝 G)) (hP : P0 * G = G) :
    Tendsto (fun k => exp (t • Gk k) * P0) atTop (𝓝 (P0 * exp (t • G))) := by
  have hcont : Continuous fun s : ℝ => exp (s • G) :=
    continuous_iff_continuousAt.mpr fun s => (hasDerivAt_exp_smul_const (𝕂 := ℝ) G s).continuousAt
  obtain ⟨C, hC⟩ := (isCompact_Icc (a := (0 : ℝ)) (b := t)).exists_bound_of_continuousOn hcont.continuousOn
  have hdiff : ∀ᶠ k in atTop, ‖Vk k * exp (t • G) - exp (t • Gk k) * Vk k‖ ≤ M * ‖Vk k * G - Gk k * Vk k‖ * C * t := by
    filter_upwards [hM] with k hk
    have hd : ∀ s : ℝ, HasDerivAt (fun s : ℝ => exp ((t - s) • Gk k) * Vk k * exp (s • G))
        (exp ((t - s) • Gk k) * (Vk k * G - Gk k * Vk k) * exp (s • G)) s := by
      intro s
      have h1 : HasDerivAt (fun s : ℝ => exp ((t - s) • Gk k)) ((-1 : ℝ) • (exp ((t - s) • Gk k) * Gk k)) s :=
        (hasDerivAt_exp_smul_const (𝕂 := ℝ) (Gk k) (t - s)).scomp s ((hasDerivAt_id s).const_sub t)
      have h2 := (h1.mul_const (Vk k)).mul (hasDerivAt_exp_smul_const' (𝕂 := ℝ) G s)
      have h3 : HasDerivAt (fun s : ℝ => exp ((t - s) • Gk k) * Vk k * exp (s • G)) _ s := h2
      convert h3 using 1
      simp only [neg_smul, one_smul]
      noncomm_ring
    have := norm_image_sub_le_of_norm_deriv_le_segment' (f := fun s : ℝ => exp ((t - s) • Gk k) * Vk k * exp (s • G)) (a := 0) (b := t)
      (C := M * ‖Vk k * G - Gk k * Vk k‖ * C) (fun s _ => (hd s).hasDerivWithinAt) (by
        intro s hs
        refine (norm_mul_le _ _).trans ?_
        refine mul_le_mul ((norm_mul_le _ _).trans (mul_le_mul_of_nonneg_right (hk _ (by linarith [hs.2]) (by linarith [hs.1])) (norm_nonneg _)))
          (hC s ⟨hs.1, hs.2.le⟩) (norm_nonneg _) ?_
        exact mul_nonneg ((norm_nonneg _).trans (hk 0 le_rfl ht)) (norm_nonneg _)) t (Set.right_mem_Icc.mpr ht)
    simpa using this
  have hz : Tendsto (fun k => Vk k * G - Gk k * Vk k) atTop (𝓝 0) := by
    have := (hV.mul_const G).sub hGV
    rwa [hP, sub_self] at this
  have h1 : Tendsto (fun k => Vk k * exp (t • G) - exp (t • Gk k) * Vk k) atTop (𝓝 0) := by
    refine squeeze_zero_norm' hdiff ?_
    have := ((hz.norm.const_mul M).mul_const C).mul_const t
    simpa using this
  have h2 : Tendsto (fun k => exp (t • Gk k) * (Vk k - P0)) atTop (𝓝 0) := by
    have hz2 : Tendsto (fun k => M * ‖Vk k - P0‖) atTop (𝓝 0) := by
      have := (tendsto_sub_nhds_zero_iff.mpr hV).norm.const_mul M
      simpa using this
    refine squeeze_zero_norm' ?_ hz2
    filter_upwards [hM] with k hk
    exact (norm_mul_le _ _).trans (mul_le_mul_of_nonneg_right (hk t ht le_rfl) (norm_nonneg _))
  have h3 := ((hV.mul_const (exp (t • G))).sub h1).sub h2
  simp only [sub_zero] at h3
  refine h3.congr fun k => ?_
  noncomm_ring

end QNET.Adiabatic
