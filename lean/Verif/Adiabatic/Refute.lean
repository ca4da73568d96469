import Verif.Adiabatic.Try
import Mathlib.Analysis.Normed.Algebra.MatrixExponential
import Mathlib.Analysis.SpecialFunctions.Complex.Circle

/-! # C67, C68: examples and counterexamples -/

namespace QNET.Adiabatic

open Finset Perm Polynomial

section

variable {A : Type} [Ring A]

/-- the model with `L = g + k f` and `H = h0 + k h1 + k² h2` -/
noncomputable def mkK (n : ℕ) (S : ℕ → ℕ → A) (g f : ℕ → A) (h0 h1 h2 : A) : KSLH A where
  n := n
  S := S
  L := fun i => C (g i) + C (f i) * X
  H := C h0 + C h1 * X + C h2 * X ^ 2

theorem mkK_L0 (n S g f) (h0 h1 h2 : A) (i : ℕ) : ((mkK n S g f h0 h1 h2).L i).coeff 0 = g i := by simp [mkK]

theorem mkK_L1 (n S g f) (h0 h1 h2 : A) (i : ℕ) : ((mkK n S g f h0 h1 h2).L i).coeff 1 = f i := by simp [mkK, coeff_C]

theorem mkK_H0 (n S g f) (h0 h1 h2 : A) : (mkK n S g f h0 h1 h2).H.coeff 0 = h0 := by simp [mkK]

theorem mkK_H1 (n S g f) (h0 h1 h2 : A) : (mkK n S g f h0 h1 h2).H.coeff 1 = h1 := by simp [mkK, coeff_C, coeff_X_pow]

theorem mkK_H2 (n S g f) (h0 h1 h2 : A) : (mkK n S g f h0 h1 h2).H.coeff 2 = h2 := by simp [mkK, coeff_C, coeff_X]

theorem mkK_scaled [StarRing A] {n S g f} {h0 h1 h2 : A} (e0 : star h0 = h0) (e1 : star h1 = h1) (e2 : star h2 = h2)
    (iso : ∀ k l, k < n → l < n → ∑ i ∈ range n, star (S i k) * S i l = if k = l then 1 else 0)
    (coiso : ∀ k l, k < n → l < n → ∑ j ∈ range n, S k j * star (S l j) = if k = l then 1 else 0) :
    Scaled (mkK n S g f h0 h1 h2) where
  degL := fun i _ => by
    show (C (g i) + C (f i) * X).natDegree ≤ 1
    compute_degree
  degH := by
    show (C h0 + C h1 * X + C h2 * X ^ 2).natDegree ≤ 2
    compute_degree
  herm := by
    intro p
    have : (mkK n S g f h0 h1 h2).H.natDegree ≤ 2 := by
      show (C h0 + C h1 * X + C h2 * X ^ 2).natDegree ≤ 2
      compute_degree
    match p with
    | 0 => rw [mkK_H0, e0]
    | 1 => rw [mkK_H1, e1]
    | 2 => rw [mkK_H2, e2]
    | p + 3 => rw [coeff_eq_zero_of_natDegree_lt (by omega), star_zero]
  iso := iso
  coiso := coiso

variable [StarRing A] [Algebra ℂ A] [StarModule ℂ A]

theorem mkK_zero (S g f) (h0 h1 h2 : A) : (prepare (mkK 0 S g f h0 h1 h2)).Y = Complex.I • h2 ∧ (prepare (mkK 0 S g f h0 h1 h2)).A = Complex.I • h1 ∧
    (prepare (mkK 0 S g f h0 h1 h2)).B = Complex.I • h0 := by
  refine ⟨?_, ?_, ?_⟩
  · show coeffK _ 2 = _
    rw [coeffK, mkK_H2]
    show -((1 / 2 : ℂ) • ∑ i ∈ range 0, _) + _ = _
    rw [range_zero, sum_empty, smul_zero, neg_zero, zero_add]
  · show coeffK _ 1 = _
    rw [coeffK, mkK_H1]
    show -((1 / 2 : ℂ) • ∑ i ∈ range 0, _) + _ = _
    rw [range_zero, sum_empty, smul_zero, neg_zero, zero_add]
  · show coeffK _ 0 = _
    rw [coeffK, mkK_H0]
    show -((1 / 2 : ℂ) • ∑ i ∈ range 0, _) + _ = _
    rw [range_zero, sum_empty, smul_zero, neg_zero, zero_add]

end

/-! ### Levels beyond the truncation -/

/-- a ground level, coupled to the highest of `t` excited levels -/
noncomputable def farModel (t : ℕ) : KSLH (Mat (t + 1)) :=
  mkK 0 (fun _ _ => 0) (fun _ => 0) (fun _ => 0) 0 (sigma 0 (Fin.last t) + sigma (Fin.last t) 0) (Matrix.diagonal fun j => if j = 0 then 0 else 1)

theorem farModel_scaled (t : ℕ) : Scaled (farModel t) := by
  apply mkK_scaled
  · exact star_zero _
  · simp [Matrix.star_eq_conjTranspose, Matrix.conjTranspose_single, add_comm]
  · rw [Matrix.star_eq_conjTranspose, Matrix.diagonal_conjTranspose]
    congr 1; funext j; simp only [Pi.star_apply]; split <;> simp
  · intro k l hk; exact absurd hk (Nat.not_lt_zero _)
  · intro k l hk; exact absurd hk (Nat.not_lt_zero _)

theorem far_klim {t : ℕ} (ht : 1 ≤ t) (c : Fin (t + 1) → ℂ) : klim (prepare (farModel t)) (Matrix.diagonal c) (sigma 0 0) = c (Fin.last t) • sigma 0 0 := by
  obtain ⟨-, hA, hB⟩ := mkK_zero (A := Mat (t + 1)) (fun _ _ => 0) (fun _ => 0) (fun _ => 0) 0 (sigma 0 (Fin.last t) + sigma (Fin.last t) 0)
    (Matrix.diagonal fun j => if j = 0 then 0 else 1)
  have h0 : (0 : Fin (t + 1)) ≠ Fin.last t := by
    intro h
    have := congrArg Fin.val h
    simp at this
    omega
  have hA' : (prepare (farModel t)).A = Complex.I • (sigma 0 (Fin.last t) + sigma (Fin.last t) 0) := hA
  have hB' : (prepare (farModel t)).B = 0 := hB.trans (smul_zero _)
  rw [klim, hA', hB', zero_sub, sigma, Matrix.single_mul_mul_single]
  have e : (-(Complex.I • (sigma 0 (Fin.last t) + sigma (Fin.last t) 0) * Matrix.diagonal c * Complex.I • (sigma 0 (Fin.last t) + sigma (Fin.last t) 0)) : Mat (t + 1)) 0 0
      = c (Fin.last t) := by
    rw [Matrix.neg_apply, Matrix.mul_apply, sum_eq_single (Fin.last t)]
    · rw [Matrix.mul_diagonal]
      simp [sigma, Matrix.single_apply, h0, h0.symm]
      rw [show Complex.I * c (Fin.last t) * Complex.I = (Complex.I * Complex.I) * c (Fin.last t) by ring, Complex.I_mul_I]
      ring
    · intro j _ hj
      rw [Matrix.mul_diagonal]
      simp [sigma, Matrix.single_apply, h0, h0.symm, hj.symm]
    · intro h; exact absurd (mem_univ _) h
  rw [e, one_mul, mul_one, Matrix.smul_single, smul_eq_mul, mul_one]

theorem mem_levels {d trunc : ℕ} (j : Fin d) : j ∈ levels d trunc ↔ j.1 < trunc := by
  rw [levels, List.mem_take_iff_getElem]
  constructor
  · rintro ⟨i, hi, rfl⟩
    simp at hi ⊢
    omega
  · intro h
    exact ⟨j.1, by simp [h], by simp⟩

theorem far_Y (t : ℕ) : (prepare (farModel t)).Y = Matrix.diagonal fun j => if j = 0 then 0 else Complex.I := by
  rw [show (prepare (farModel t)).Y = _ from (mkK_zero (A := Mat (t + 1)) _ _ _ _ _ _).1]
  ext i j
  rw [Matrix.smul_apply, Matrix.diagonal_apply, Matrix.diagonal_apply]
  split
  · split <;> simp
  · simp

theorem far_null {t trunc : ℕ} (h : 1 ≤ trunc) : nullProj trunc (prepare (farModel t)).Y = sigma 0 0 := by
  classical
  rw [nullProj_eq, far_Y]
  ext i j
  rw [Matrix.diagonal_apply]
  simp only [Matrix.diagonal_apply_eq, mem_levels, sigma, Matrix.single_apply]
  by_cases hi : i = 0
  · subst hi
    by_cases hj : (0 : Fin (t + 1)) = j
    · subst hj; simp; omega
    · simp [hj]
  · have : ¬ (0 : Fin (t + 1)) = i := fun h => hi h.symm
    simp [hi, this]

/-- C68 refuted: on a space with more than `fock_trunc` levels the higher levels are silently ignored. For every `fock_trunc ≥ 2` there is a model with `fock_trunc + 1` levels that has an
adiabatic limit with a level shift, for which `try_adiabatic_elimination` returns a different Hamiltonian. -/
theorem C68_trunc_refuted (t : ℕ) (ht : 2 ≤ t) : ∃ (m : KSLH (Mat (t + 1))) (a : SLH (Mat (t + 1))) (Yt P0 : Mat (t + 1)),
    Scaled m ∧ Eliminable (prepare m) Yt P0 ∧ tryElim m t false = .ok a ∧ a.H ≠ (evalLimit (prepare m) Yt P0).H := by
  classical
  have hY := far_Y t
  have h1 : ∀ trunc, ¬ ∃ j ∈ levels (t + 1) trunc, ∃ k ∈ levels (t + 1) trunc, j ≠ k ∧ (prepare (farModel t)).Y j k ≠ 0 := by
    rintro trunc ⟨j, -, k, -, hjk, h⟩
    rw [hY, Matrix.diagonal_apply_ne _ hjk] at h
    exact h rfl
  have hn : nulls t (prepare (farModel t)).Y ≠ [] := by
    apply List.ne_nil_of_mem (a := (0 : Fin (t + 1)))
    rw [nulls, List.mem_filter, hY]
    exact ⟨(mem_levels _).mpr (by simp; omega), by simp⟩
  have hf : fasts t (prepare (farModel t)).Y ≠ [] := by
    apply List.ne_nil_of_mem (a := (⟨1, by omega⟩ : Fin (t + 1)))
    rw [fasts, List.mem_filter, hY]
    refine ⟨(mem_levels _).mpr (by simp; omega), ?_⟩
    have : ¬ (⟨1, by omega⟩ : Fin (t + 1)) = 0 := by intro h; have := congrArg Fin.val h; simp at this
    simp [this]
  have hu : Unchecked (prepare (farModel t)) (pinv (t + 1) (prepare (farModel t)).Y) (nullProj (t + 1) (prepare (farModel t)).Y) := by
    refine ⟨?_, fun i hi => absurd hi (Nat.not_lt_zero _), fun i j hi => absurd hi (Nat.not_lt_zero _)⟩
    rw [far_null (by omega), show (prepare (farModel t)).A = _ from (mkK_zero (A := Mat (t + 1)) _ _ _ _ _ _).2.1, sigma, Matrix.single_mul_mul_single]
    have h0 : ¬ Fin.last t = 0 := by
      intro h
      have := congrArg Fin.val h
      simp at this
      omega
    simp [sigma, Matrix.single_apply, h0]
  have E := eliminable (farModel_scaled t) (le_refl _) (h1 _) hu
  refine ⟨farModel t, evalLimit (prepare (farModel t)) (pinv t (prepare (farModel t)).Y) (nullProj t (prepare (farModel t)).Y), _, _,
    farModel_scaled t, E, ?_, ?_⟩
  · rw [tryElim]
    simp only
    rw [if_neg (h1 t), if_neg hf, if_neg hn, if_neg (by decide)]
  · show star (hlim _ _ _) ≠ star (hlim _ _ _)
    rw [star_hlim, star_hlim, far_null (by omega), far_null (by omega), hlim, hlim, pinv_eq, pinv_eq, far_klim (by omega), far_klim (by omega)]
    have hl : ¬ Fin.last t = 0 := by
      intro h
      have := congrArg Fin.val h
      simp at this
      omega
    rw [if_neg (by rw [mem_levels]; simp), if_pos (by rw [mem_levels, hY]; simp [hl]), hY]
    simp only [Matrix.diagonal_apply_eq, if_neg hl, zero_smul, star_zero, sub_zero, smul_zero]
    intro h
    have := congrFun (congrFun h 0) 0
    simp [sigma, Matrix.single_apply, Matrix.star_apply] at this

theorem tryElim_of {d : ℕ} {m : KSLH (Mat d)} {trunc : ℕ} (c : Fin d → ℂ) (hY : (prepare m).Y = Matrix.diagonal c) {j k : Fin d}
    (hj : j.1 < trunc) (hk : k.1 < trunc) (h0 : c j = 0) (h1 : c k ≠ 0) :
    tryElim m trunc false = .ok (evalLimit (prepare m) (pinv trunc (prepare m).Y) (nullProj trunc (prepare m).Y)) := by
  classical
  have h1' : ¬ ∃ j ∈ levels d trunc, ∃ k ∈ levels d trunc, j ≠ k ∧ (prepare m).Y j k ≠ 0 := by
    rintro ⟨j, -, k, -, hjk, h⟩
    rw [hY, Matrix.diagonal_apply_ne _ hjk] at h
    exact h rfl
  have hn : nulls trunc (prepare m).Y ≠ [] := by
    apply List.ne_nil_of_mem (a := j)
    rw [nulls, List.mem_filter, hY]
    exact ⟨(mem_levels _).mpr hj, by simp [h0]⟩
  have hf : fasts trunc (prepare m).Y ≠ [] := by
    apply List.ne_nil_of_mem (a := k)
    rw [fasts, List.mem_filter, hY]
    exact ⟨(mem_levels _).mpr hk, by simp [h1]⟩
  rw [tryElim]
  simp only
  rw [if_neg h1', if_neg hf, if_neg hn, if_neg (by decide)]

/-! ### Off-diagonal elements -/

/-- C68 refuted: if `Y` is not diagonal in the basis of the space, `try_adiabatic_elimination` does not raise `CannotEliminateAutomatically` but fails with
`AttributeError`. -/
theorem C68_offdiag_refuted (trunc : ℕ) (ht : 2 ≤ trunc) (s : Bool) : ∃ m : KSLH (Mat 2), Scaled m ∧ tryElim m trunc s = .error .attributeError := by
  classical
  refine ⟨mkK 0 (fun _ _ => 0) (fun _ => 0) (fun _ => 0) 0 0 (sigma 0 1 + sigma 1 0), ?_, ?_⟩
  · apply mkK_scaled
    · exact star_zero _
    · exact star_zero _
    · simp [Matrix.star_eq_conjTranspose, Matrix.conjTranspose_single, add_comm]
    · intro k l hk; exact absurd hk (Nat.not_lt_zero _)
    · intro k l hk; exact absurd hk (Nat.not_lt_zero _)
  · rw [tryElim]
    simp only
    rw [if_pos]
    refine ⟨0, (mem_levels _).mpr (by simp; omega), 1, (mem_levels _).mpr (by simp; omega), by decide, ?_⟩
    rw [(mkK_zero (A := Mat 2) _ _ _ _ _ _).1]
    simp [sigma, Matrix.single_apply]

/-! ### Conditions that are not checked -/

/-- a level that is not eliminated and has an energy of order `k` -/
noncomputable def divergent : KSLH (Mat 2) := mkK 0 (fun _ _ => 0) (fun _ => 0) (fun _ => 0) 0 (sigma 0 0) (sigma 1 1)

theorem divergent_scaled : Scaled divergent := by
  apply mkK_scaled
  · exact star_zero _
  · simp [Matrix.star_eq_conjTranspose]
  · simp [Matrix.star_eq_conjTranspose]
  · intro k l hk; exact absurd hk (Nat.not_lt_zero _)
  · intro k l hk; exact absurd hk (Nat.not_lt_zero _)

theorem divergent_gen (k : ℝ) (α β : ℕ → ℂ) : generator (divergent.at k) 1 α β = Matrix.diagonal ![Complex.I * k, Complex.I * k ^ 2] := by
  rw [gen_at divergent_scaled]
  obtain ⟨hY, hA, hB⟩ := mkK_zero (A := Mat 2) (fun _ _ => 0) (fun _ => 0) (fun _ => 0) 0 (sigma 0 0) (sigma 1 1)
  have hY' : (prepare divergent).Y = Complex.I • sigma 1 1 := hY
  have hA' : genA (prepare divergent) α β = Complex.I • sigma 0 0 := by
    rw [genA]
    show (prepare divergent).A + ∑ i ∈ range 0, _ - ∑ i ∈ range 0, _ = _
    rw [range_zero, sum_empty, sum_empty, add_zero, sub_zero]
    exact hA
  have hB' : genB (prepare divergent) α β = 0 := by
    rw [genB, gen']
    show (prepare divergent).B + ∑ i ∈ range 0, _ - ∑ i ∈ range 0, _ + ∑ i ∈ range 0, _ = _
    rw [range_zero, sum_empty, sum_empty, sum_empty, add_zero, sub_zero, add_zero]
    exact hB.trans (smul_zero _)
  rw [hY', hA', hB']
  ext i j
  fin_cases i <;> fin_cases j <;> simp [sigma, Matrix.single_apply, mul_comm]

open scoped Matrix.Norms.L2Operator in
/-- C68 refuted: `try_adiabatic_elimination` does not check the conditions for the existence of the limit. It returns a model although the level that is not eliminated has an energy of order `k`,
so that the evolution does not converge. -/
theorem C68_unchecked_refuted (trunc : ℕ) (ht : 2 ≤ trunc) : ∃ m : KSLH (Mat 2), Scaled m ∧ (∃ a, tryElim m trunc false = .ok a) ∧
    ¬ ∃ U : Mat 2, Filter.Tendsto (fun k : ℝ => NormedSpace.exp ((1 : ℝ) • generator (m.at k) 1 0 0) * nullProj trunc (prepare m).Y) Filter.atTop (nhds U) := by
  classical
  have hY : (prepare divergent).Y = Matrix.diagonal ![0, Complex.I] := by
    rw [show (prepare divergent).Y = _ from (mkK_zero (A := Mat 2) _ _ _ _ _ _).1]
    ext i j
    fin_cases i <;> fin_cases j <;> simp [sigma, Matrix.single_apply]
  have hP : nullProj trunc (prepare divergent).Y = sigma 0 0 := by
    rw [nullProj_eq, hY]
    ext i j
    fin_cases i <;> fin_cases j <;> simp [sigma, Matrix.single_apply, mem_levels]
    omega
  refine ⟨divergent, divergent_scaled, ⟨_, tryElim_of _ hY (j := 0) (k := 1) (by simp; omega) (by simp; omega) (by simp) (by simp)⟩, ?_⟩
  rintro ⟨U, hU⟩
  rw [hP] at hU
  have hcont : Continuous fun M : Mat 2 => M 0 0 := continuous_id.matrix_elem 0 0
  have h1 : Filter.Tendsto (fun k : ℝ => Complex.exp (k * Complex.I)) Filter.atTop (nhds (U 0 0)) := by
    refine ((hcont.tendsto U).comp hU).congr fun k => ?_
    show (NormedSpace.exp ((1 : ℝ) • generator (divergent.at k) 1 0 0) * sigma 0 0 : Mat 2) 0 0 = _
    rw [one_smul, divergent_gen, Matrix.exp_diagonal, Matrix.diagonal_mul]
    simp [sigma, Pi.coe_exp, Complex.exp_eq_exp_ℂ, mul_comm]
  have hev : Filter.Tendsto (fun n : ℕ => (n : ℝ) * (2 * Real.pi)) Filter.atTop Filter.atTop :=
    tendsto_natCast_atTop_atTop.atTop_mul_const (by positivity)
  have h2 := h1.comp hev
  have h3 := h1.comp (Filter.tendsto_atTop_add_const_right _ Real.pi hev)
  have e2 : U 0 0 = 1 := by
    refine tendsto_nhds_unique h2 (tendsto_const_nhds.congr fun n => ?_)
    show (1 : ℂ) = Complex.exp (((n : ℝ) * (2 * Real.pi) : ℝ) * Complex.I)
    have := Complex.exp_nat_mul_two_pi_mul_I n
    rw [← this]
    congr 1
    push_cast
    ring
  have e3 : U 0 0 = -1 := by
    refine tendsto_nhds_unique h3 (tendsto_const_nhds.congr fun n => ?_)
    show (-1 : ℂ) = Complex.exp (((n : ℝ) * (2 * Real.pi) + Real.pi : ℝ) * Complex.I)
    have := Complex.exp_nat_mul_two_pi_mul_I n
    push_cast
    rw [add_mul, Complex.exp_add, Complex.exp_pi_mul_I, show (n : ℂ) * (2 * Real.pi) * Complex.I = n * (2 * Real.pi * Complex.I) by ring, this, one_mul]
  rw [e2] at e3
  norm_num at e3

/-! ### A decaying level -/

/-- one channel with scattering `s` into which the excited level decays at rate `k²`, and a drive of order `k` -/
noncomputable def decay (s h1 : Mat 2) : KSLH (Mat 2) := mkK 1 (fun _ _ => s) (fun _ => 0) (fun _ => sigma 0 1) 0 h1 0

theorem decay_scaled {s h1 : Mat 2} (hs : star s * s = 1) (hs' : s * star s = 1) (h : star h1 = h1) : Scaled (decay s h1) := by
  apply mkK_scaled
  · exact star_zero _
  · exact h
  · exact star_zero _
  · intro k l hk hl
    rw [sum_range_one, hs, if_pos (by omega)]
  · intro k l hk hl
    rw [sum_range_one, hs', if_pos (by omega)]

theorem decay_Y {s h1 : Mat 2} (h : Scaled (decay s h1)) : (prepare (decay s h1)).Y = Matrix.diagonal ![0, -(1 / 2)] := by
  show coeffK _ 2 = _
  rw [coeffK_two h]
  show -((1 / 2 : ℂ) • ∑ i ∈ range 1, _) + Complex.I • (mkK _ _ _ _ _ _ _).H.coeff 2 = _
  rw [sum_range_one, mkK_H2, smul_zero, add_zero, decay, mkK_L1]
  ext i j
  fin_cases i <;> fin_cases j <;> simp [sigma, Matrix.star_eq_conjTranspose]

theorem decay_A (s h1 : Mat 2) : (prepare (decay s h1)).A = Complex.I • h1 := by
  show coeffK _ 1 = _
  rw [coeffK_one, decay, mkK_H1]
  simp only [mkK_L0, star_zero, zero_mul, mul_zero, sum_const_zero, add_zero, smul_zero, neg_zero, zero_add]

theorem decay_null {s h1 : Mat 2} (h : Scaled (decay s h1)) {trunc : ℕ} (ht : 2 ≤ trunc) : nullProj trunc (prepare (decay s h1)).Y = sigma 0 0 := by
  classical
  rw [nullProj_eq, decay_Y h]
  ext i j
  fin_cases i <;> fin_cases j <;> simp [sigma, Matrix.single_apply, mem_levels]
  omega

theorem decay_pinv {s h1 : Mat 2} (h : Scaled (decay s h1)) {trunc : ℕ} (ht : 2 ≤ trunc) : pinv trunc (prepare (decay s h1)).Y = (-2 : ℂ) • sigma 1 1 := by
  classical
  rw [pinv_eq, decay_Y h]
  ext i j
  fin_cases i <;> fin_cases j <;> simp [sigma, Matrix.single_apply, mem_levels]
  omega

theorem decay_F (s h1 : Mat 2) (i : ℕ) : (prepare (decay s h1)).F i = sigma 1 0 := by
  show star ((mkK _ _ _ _ _ _ _).L i |>.coeff 1) = _
  rw [mkK_L1, Matrix.star_eq_conjTranspose, Matrix.conjTranspose_single, star_one]

theorem decay_G (s h1 : Mat 2) (i : ℕ) : (prepare (decay s h1)).G i = 0 := by
  show star ((mkK _ _ _ _ _ _ _).L i |>.coeff 0) = _
  rw [mkK_L0, star_zero]

theorem decay_dN (s h1 : Mat 2) (i j : ℕ) (hi : i = 0) (hj : j = 0) : dN (prepare (decay s h1)) ((-2 : ℂ) • sigma 1 1) i j = 1 - (2 : ℂ) • sigma 0 0 := by
  subst hi; subst hj
  rw [dN, decay_F, if_pos rfl]
  ext i j
  fin_cases i <;> fin_cases j <;> simp [sigma, Matrix.star_eq_conjTranspose]
  norm_num

/-- the flip of the two levels -/
def flip2 : Mat 2 := !![0, 1; 1, 0]

theorem flip2_sq : star flip2 = flip2 ∧ flip2 * flip2 = 1 := by
  constructor
  · ext i j
    fin_cases i <;> fin_cases j <;> simp [flip2, Matrix.star_apply]
  · ext i j
    fin_cases i <;> fin_cases j <;> simp [flip2, Matrix.mul_apply, Fin.sum_univ_two]

/-- The hypotheses of C67 and C68 hold for a driven two-level system whose excited level decays into one channel. -/
theorem decay_unchecked {trunc : ℕ} (ht : 2 ≤ trunc) :
    Unchecked (prepare (decay 1 flip2)) (pinv trunc (prepare (decay 1 flip2)).Y) (nullProj trunc (prepare (decay 1 flip2)).Y) := by
  have hs : Scaled (decay 1 flip2) := decay_scaled (by simp) (by simp) flip2_sq.1
  rw [decay_null hs ht, decay_pinv hs ht]
  refine ⟨?_, ?_, ?_⟩
  · rw [decay_A]
    ext i j
    fin_cases i <;> fin_cases j <;> simp [sigma, flip2, Matrix.single_apply, Matrix.mul_apply, Fin.sum_univ_two]
  · intro i _
    rw [decay_A, decay_F, decay_G]
    ext i j
    fin_cases i <;> fin_cases j <;> simp [sigma, flip2, Matrix.single_apply, Matrix.mul_apply, Fin.sum_univ_two, Matrix.vecMul, dotProduct]
  · intro i j hi hj
    have hi' : i < 1 := hi
    have hj' : j < 1 := hj
    show (∑ l ∈ range 1, _) * _ = 0
    rw [sum_range_one, decay_dN _ _ _ _ rfl (by omega)]
    show sigma 0 0 * star (1 : Mat 2) * _ * _ = 0
    rw [star_one]
    ext i j
    fin_cases i <;> fin_cases j <;> simp [sigma, Matrix.single_apply, Matrix.mul_apply, Fin.sum_univ_two]

example : Eliminable (prepare (decay 1 flip2)) (pinv 6 (prepare (decay 1 flip2)).Y) (nullProj 6 (prepare (decay 1 flip2)).Y) := by
  have hs : Scaled (decay 1 flip2) := decay_scaled (by simp) (by simp) flip2_sq.1
  refine eliminable hs (by omega) ?_ (decay_unchecked (by omega))
  rintro ⟨j, -, k, -, hjk, h⟩
  rw [decay_Y hs, Matrix.diagonal_apply_ne _ hjk] at h
  exact h rfl

example : ∃ a, tryElim (decay 1 flip2) 6 false = .ok a := by
  have hs : Scaled (decay 1 flip2) := decay_scaled (by simp) (by simp) flip2_sq.1
  exact ⟨_, tryElim_of _ (decay_Y hs) (j := 0) (k := 1) (by simp) (by simp) (by simp) (by simp)⟩

theorem evalLimit_S {A : Type} [Ring A] [StarRing A] [Algebra ℂ A] (o : Ops A) (Yt P0 : A) {i j : ℕ} (hi : i < o.n) (hj : j < o.n) :
    (evalLimit o Yt P0).S i j = star (nlim o Yt P0 j i) := if_pos ⟨hi, hj⟩

/-- C68 refuted: the scattering matrix of the returned model is not unitary if the scattering of the model leads out of the null space: it can even be zero. -/
theorem C68_scattering_refuted (trunc : ℕ) (ht : 2 ≤ trunc) : ∃ (m : KSLH (Mat 2)) (a : SLH (Mat 2)), Scaled m ∧ tryElim m trunc false = .ok a ∧
    a.n = 1 ∧ a.S 0 0 = 0 := by
  have hs : Scaled (decay flip2 0) := decay_scaled (by rw [flip2_sq.1, flip2_sq.2]) (by rw [flip2_sq.1, flip2_sq.2]) (star_zero _)
  refine ⟨decay flip2 0, _, hs, tryElim_of _ (decay_Y hs) (j := 0) (k := 1) (by simp; omega) (by simp; omega) (by simp) (by simp), rfl, ?_⟩
  rw [decay_null hs ht, decay_pinv hs ht]
  have e : (evalLimit (prepare (decay flip2 0)) ((-2 : ℂ) • sigma 1 1) (sigma 0 0)).S 0 0 = star (nlim (prepare (decay flip2 0)) ((-2 : ℂ) • sigma 1 1) (sigma 0 0) 0 0) :=
    evalLimit_S _ _ _ Nat.zero_lt_one Nat.zero_lt_one
  rw [e]
  show star ((∑ l ∈ range 1, _) * _) = _
  rw [sum_range_one, decay_dN _ _ _ _ rfl rfl]
  show star (sigma 0 0 * star flip2 * _ * _) = 0
  rw [flip2_sq.1]
  ext i j
  fin_cases i <;> fin_cases j <;> simp [sigma, flip2, Matrix.star_apply, Matrix.single_apply, Matrix.mul_apply, Fin.sum_univ_two]

/-- C67 refuted for the relation of the documentation: a pseudo-inverse with `Y Ỹ = P0`, as required by the documentation of `eval_adiabatic_limit`, exists only if the null space is trivial. -/
theorem C67_docstring_refuted {A : Type} [Ring A] {Y Yt P0 : A} (hP : P0 * P0 = P0) (hY : P0 * Y = 0) (h : Y * Yt = P0) : P0 = 0 := by
  have h1 : P0 * P0 = P0 * (Y * Yt) := by rw [h]
  rw [← mul_assoc, hY, zero_mul, hP] at h1
  exact h1

end QNET.Adiabatic
