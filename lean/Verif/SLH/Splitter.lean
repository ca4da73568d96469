import Verif.SLH.Drive
import Mathlib.Analysis.SpecialFunctions.Trigonometric.Inverse
import Mathlib.LinearAlgebra.UnitaryGroup

/-!
# C94: general beam splitters

The documentation of `Beamsplitter` (`src/qnet/algebra/library/circuit_components.py` lines 77-138) says that the symmetric beam splitter, or any general
beam splitter, can be obtained by combining it with `PhaseCC` components. The components are modelled in `Verif/SLH/Drive.lean`, series products and
concatenations in `Verif/SLH/Model.lean`.
-/

namespace QNET.SLH

open ComplexConjugate

variable {A : Type} [Ring A] [StarRing A] [Algebra ℂ A] [StarModule ℂ A]

/-- the two-channel scatterer with the matrix `U` (specification) -/
def scatterer (U : Matrix (Fin 2) (Fin 2) ℂ) : SLH A :=
  mk' 2 (fun i j => algebraMap ℂ A (if i = 0 then (if j = 0 then U 0 0 else U 0 1) else (if j = 0 then U 1 0 else U 1 1))) (fun _ => 0) 0

/-- `(PhaseCC(p) + PhaseCC(q)) << Beamsplitter(theta) << (PhaseCC(r) + PhaseCC(s))` -/
noncomputable def dressed (p q θ r s : ℂ) : SLH A :=
  series (concat (phaseCC p) (phaseCC q)) (series (beamsplitter θ) (concat (phaseCC r) (phaseCC s)))

/-- the SLH triple of two phases around a beam splitter -/
theorem dressed_eq (p q θ r s : ℂ) : (dressed p q θ r s : SLH A) =
    scatterer !![Complex.exp (Complex.I * p) * Complex.cos θ * Complex.exp (Complex.I * r), -(Complex.exp (Complex.I * p) * Complex.sin θ * Complex.exp (Complex.I * s));
      Complex.exp (Complex.I * q) * Complex.sin θ * Complex.exp (Complex.I * r), Complex.exp (Complex.I * q) * Complex.cos θ * Complex.exp (Complex.I * s)] := by
  have n1 : ∀ x : ℂ, (phaseCC x : SLH A).n = 1 := fun _ => rfl
  have hn : ∀ x y : ℂ, (concat (phaseCC x) (phaseCC y) : SLH A).n = 2 := fun _ _ => rfl
  have hb : (beamsplitter θ : SLH A).n = 2 := rfl
  refine ext' rfl ?_ ?_ ?_
  · intro i j hi hj
    have hi : i < 2 := hi
    have hj : j < 2 := hj
    have hS : ∀ (x y : ℂ) (i j : ℕ), i < 2 → j < 2 → (concat (phaseCC x) (phaseCC y) : SLH A).S i j =
        algebraMap ℂ A (if i = 0 then (if j = 0 then Complex.exp (Complex.I * x) else 0) else (if j = 0 then 0 else Complex.exp (Complex.I * y))) := by
      intro x y i j hi hj
      rw [concat, mk'_S (by exact hi) (by exact hj)]
      interval_cases i <;> interval_cases j <;> simp [phaseCC, mk']
    rw [dressed, series, mk'_S (by exact hi) (by exact hj), hn, Finset.sum_range_succ, Finset.sum_range_succ, Finset.sum_range_zero, zero_add, series,
      mk'_S (by rw [hb]; omega) (by rw [hb]; omega), mk'_S (by rw [hb]; omega) (by rw [hb]; omega), hb, Finset.sum_range_succ, Finset.sum_range_succ,
      Finset.sum_range_zero, zero_add, Finset.sum_range_succ, Finset.sum_range_succ, Finset.sum_range_zero, zero_add, hS, hS, hS, hS, beamsplitter, mk'_S,
      mk'_S, mk'_S, mk'_S, scatterer, mk'_S] <;> try omega
    simp only [← map_mul, ← map_add]
    congr 1
    interval_cases i <;> interval_cases j <;> simp <;> ring
  · intro i hi
    have hi : i < 2 := hi
    have h0 : ∀ (x y : ℂ) (i : ℕ), (concat (phaseCC x) (phaseCC y) : SLH A).L i = 0 := by
      intro x y i
      simp [concat, phaseCC, mk']
    have h1 : ∀ i, (beamsplitter θ : SLH A).L i = 0 := by intro i; simp [beamsplitter, mk']
    have h2 : ∀ i, (series (beamsplitter θ) (concat (phaseCC r) (phaseCC s)) : SLH A).L i = 0 := by
      intro i
      simp [series, mk', h0, h1]
    rw [dressed, series, mk'_L (by exact hi), scatterer, mk'_L (by exact hi)]
    simp [h0, h2]
  · have h0 : ∀ (x y : ℂ) (i : ℕ), (concat (phaseCC x) (phaseCC y) : SLH A).L i = 0 := by
      intro x y i
      simp [concat, phaseCC, mk']
    have h1 : ∀ i, (beamsplitter θ : SLH A).L i = 0 := by intro i; simp [beamsplitter, mk']
    have hH : ∀ x y : ℂ, (concat (phaseCC x) (phaseCC y) : SLH A).H = 0 := by
      intro x y; show (0 : A) + 0 = 0; simp
    show (concat (phaseCC p) (phaseCC q) : SLH A).H + ((beamsplitter θ : SLH A).H + (concat (phaseCC r) (phaseCC s) : SLH A).H + imAdjoint _) + imAdjoint _ = 0
    rw [hH, hH]
    simp only [h0, h1, star_zero, zero_mul, Finset.sum_const_zero, imAdjoint, sub_zero, smul_zero, add_zero, zero_add]
    rfl

/-- C94: every two-channel scatterer with a unitary matrix is a beam splitter with phase shifters on both outputs and one input; mixing angle and phases
are real. -/
theorem C94_general (U : Matrix (Fin 2) (Fin 2) ℂ) (hU : U ∈ Matrix.unitaryGroup (Fin 2) ℂ) :
    ∃ p q θ s : ℝ, (series (concat (phaseCC (p : ℂ)) (phaseCC (q : ℂ))) (series (beamsplitter (θ : ℂ)) (concat (phaseCC 0) (phaseCC (s : ℂ)))) : SLH A) = scatterer U := by
  -- unitarity
  have h1 := Matrix.mem_unitaryGroup_iff'.mp hU
  have c00 : conj (U 0 0) * U 0 0 + conj (U 1 0) * U 1 0 = 1 := by
    have := congrFun (congrFun h1 0) 0
    rw [Matrix.mul_apply, Fin.sum_univ_two] at this
    simpa [Matrix.star_apply] using this
  have c01 : conj (U 0 0) * U 0 1 + conj (U 1 0) * U 1 1 = 0 := by
    have := congrFun (congrFun h1 0) 1
    rw [Matrix.mul_apply, Fin.sum_univ_two] at this
    simpa [Matrix.star_apply] using this
  have c11 : conj (U 0 1) * U 0 1 + conj (U 1 1) * U 1 1 = 1 := by
    have := congrFun (congrFun h1 1) 1
    rw [Matrix.mul_apply, Fin.sum_univ_two] at this
    simpa [Matrix.star_apply] using this
  set a := U 0 0 with ha
  set b := U 0 1 with hb
  set c := U 1 0 with hc
  set d := U 1 1 with hd
  set Δ := a * d - b * c with hΔ
  have eb : b = -(Δ * conj c) := by
    rw [hΔ]; linear_combination (-b) * c00 + a * c01
  have ed : d = Δ * conj a := by
    rw [hΔ]; linear_combination (-d) * c00 + c * c01
  have nac : ‖a‖ ^ 2 + ‖c‖ ^ 2 = 1 := by
    rw [← Complex.ofReal_inj]
    push_cast
    rw [← Complex.conj_mul', ← Complex.conj_mul', c00]
  have nΔ : ‖Δ‖ = 1 := by
    have h2 : ‖b‖ ^ 2 + ‖d‖ ^ 2 = 1 := by
      rw [← Complex.ofReal_inj]
      push_cast
      rw [← Complex.conj_mul', ← Complex.conj_mul', c11]
    rw [eb, ed, norm_neg, norm_mul, norm_mul, Complex.norm_conj, Complex.norm_conj] at h2
    have h3 : ‖Δ‖ ^ 2 = 1 := by
      have : ‖Δ‖ ^ 2 * (‖a‖ ^ 2 + ‖c‖ ^ 2) = 1 := by linarith [h2, mul_pow ‖Δ‖ ‖a‖ 2, mul_pow ‖Δ‖ ‖c‖ 2]
      rwa [nac, mul_one] at this
    have := norm_nonneg Δ
    nlinarith
  have hθ : ∃ θ : ℝ, Real.cos θ = ‖a‖ ∧ Real.sin θ = ‖c‖ := by
    refine ⟨Real.arccos ‖a‖, Real.cos_arccos ?_ ?_, ?_⟩
    · linarith [norm_nonneg a]
    · nlinarith [norm_nonneg a, sq_nonneg ‖c‖]
    · rw [Real.sin_arccos, show 1 - ‖a‖ ^ 2 = ‖c‖ ^ 2 by linarith, Real.sqrt_sq (norm_nonneg _)]
  obtain ⟨θ, hcos, hsin⟩ := hθ
  have pa := Complex.norm_mul_exp_arg_mul_I a
  have pc := Complex.norm_mul_exp_arg_mul_I c
  have pΔ := Complex.norm_mul_exp_arg_mul_I Δ
  rw [nΔ, Complex.ofReal_one, one_mul] at pΔ
  refine ⟨a.arg, c.arg, θ, Δ.arg - a.arg - c.arg, ?_⟩
  have := dressed_eq (A := A) a.arg c.arg θ 0 (Δ.arg - a.arg - c.arg : ℝ)
  rw [dressed] at this
  rw [this]
  congr 1
  have hcos' : Complex.cos (θ : ℂ) = (‖a‖ : ℂ) := by rw [← Complex.ofReal_cos, hcos]
  have hsin' : Complex.sin (θ : ℂ) = (‖c‖ : ℂ) := by rw [← Complex.ofReal_sin, hsin]
  have ca : (‖a‖ : ℂ) * Complex.exp (-(Complex.I * a.arg)) = conj a := by
    conv_rhs => rw [← pa]
    rw [map_mul, Complex.conj_ofReal, ← Complex.exp_conj, map_mul, Complex.conj_I, Complex.conj_ofReal]
    congr 2; ring
  have cc : (‖c‖ : ℂ) * Complex.exp (-(Complex.I * c.arg)) = conj c := by
    conv_rhs => rw [← pc]
    rw [map_mul, Complex.conj_ofReal, ← Complex.exp_conj, map_mul, Complex.conj_I, Complex.conj_ofReal]
    congr 2; ring
  have e1 : Complex.exp (Complex.I * a.arg) * Complex.exp (Complex.I * ((Δ.arg - a.arg - c.arg : ℝ) : ℂ)) = Δ * Complex.exp (-(Complex.I * c.arg)) := by
    rw [← pΔ, ← Complex.exp_add, ← Complex.exp_add]
    congr 1; push_cast; rw [pΔ]; ring
  have e2 : Complex.exp (Complex.I * c.arg) * Complex.exp (Complex.I * ((Δ.arg - a.arg - c.arg : ℝ) : ℂ)) = Δ * Complex.exp (-(Complex.I * a.arg)) := by
    rw [← pΔ, ← Complex.exp_add, ← Complex.exp_add]
    congr 1; push_cast; rw [pΔ]; ring
  rw [mul_comm (a.arg : ℂ)] at pa
  rw [mul_comm (c.arg : ℂ)] at pc
  ext i j
  fin_cases i <;> fin_cases j
  · simp only [mul_zero, Complex.exp_zero, mul_one, hcos']
    simp
    rw [mul_comm, pa]
  · show -(Complex.exp (Complex.I * a.arg) * Complex.sin θ * Complex.exp (Complex.I * ((Δ.arg - a.arg - c.arg : ℝ) : ℂ))) = b
    rw [hsin', eb, ← cc]
    linear_combination (-(‖c‖ : ℂ)) * e1
  · simp only [mul_zero, Complex.exp_zero, mul_one, hsin']
    simp
    rw [mul_comm, pc]
  · show Complex.exp (Complex.I * c.arg) * Complex.cos θ * Complex.exp (Complex.I * ((Δ.arg - a.arg - c.arg : ℝ) : ℂ)) = d
    rw [hcos', ed, ← ca]
    linear_combination (‖a‖ : ℂ) * e2

/-- C94: the symmetric beam splitter of the documentation, `((cos θ, i sin θ), (i sin θ, cos θ))`, for every mixing angle: a phase of `π/2` behind the
second output and `-π/2` before the second input. -/
theorem C94_symmetric (θ : ℂ) :
    (series (concat (phaseCC 0) (phaseCC (Real.pi / 2 : ℝ))) (series (beamsplitter θ) (concat (phaseCC 0) (phaseCC (-(Real.pi / 2) : ℝ)))) : SLH A) =
      scatterer !![Complex.cos θ, Complex.I * Complex.sin θ; Complex.I * Complex.sin θ, Complex.cos θ] := by
  have h1 : Complex.exp (Complex.I * ((Real.pi / 2 : ℝ) : ℂ)) = Complex.I := by
    rw [mul_comm]; push_cast; exact Complex.exp_pi_div_two_mul_I
  have h2 : Complex.exp (Complex.I * ((-(Real.pi / 2) : ℝ) : ℂ)) = -Complex.I := by
    rw [show Complex.I * ((-(Real.pi / 2) : ℝ) : ℂ) = -(Complex.I * ((Real.pi / 2 : ℝ) : ℂ)) by push_cast; ring, Complex.exp_neg, h1, Complex.inv_I]
  have := dressed_eq (A := A) 0 (Real.pi / 2 : ℝ) θ 0 (-(Real.pi / 2) : ℝ)
  rw [dressed] at this
  rw [this, h1, h2]
  congr 1
  ext i j
  fin_cases i <;> fin_cases j <;> simp
  · ring
  · linear_combination (-Complex.cos θ) * Complex.I_mul_I

/-- C94: the default mixing angle `π/4` splits each input evenly, and with the mixing angle `π/2` the beam splitter exchanges the channels (up to the
sign of one of them). -/
theorem C94_special : (beamsplitter ((Real.pi / 2 : ℝ) : ℂ) : SLH A) = scatterer !![0, -1; 1, 0] ∧
    ∀ i j : Fin 2, ∃ z : ℂ, (beamsplitter ((Real.pi / 4 : ℝ) : ℂ) : SLH A).S i j = algebraMap ℂ A z ∧ ‖z‖ ^ 2 = 1 / 2 := by
  constructor
  · refine ext' rfl ?_ ?_ rfl
    · intro i j hi hj
      have hi : i < 2 := hi
      have hj : j < 2 := hj
      rw [beamsplitter, scatterer, mk'_S hi hj, mk'_S hi hj]
      congr 1
      interval_cases i <;> interval_cases j <;> simp
    · intro i hi
      simp [beamsplitter, scatterer, mk']
  · intro i j
    have hc : ‖Complex.cos ((Real.pi / 4 : ℝ) : ℂ)‖ ^ 2 = 1 / 2 := by
      rw [← Complex.ofReal_cos, Complex.norm_real, Real.norm_eq_abs, sq_abs, Real.cos_pi_div_four, div_pow, Real.sq_sqrt (by norm_num)]; norm_num
    have hs : ‖Complex.sin ((Real.pi / 4 : ℝ) : ℂ)‖ ^ 2 = 1 / 2 := by
      rw [← Complex.ofReal_sin, Complex.norm_real, Real.norm_eq_abs, sq_abs, Real.sin_pi_div_four, div_pow, Real.sq_sqrt (by norm_num)]; norm_num
    refine ⟨_, by rw [beamsplitter, mk'_S i.2 j.2], ?_⟩
    fin_cases i <;> fin_cases j <;> simp only [if_true, one_ne_zero, if_false, norm_neg, hc, hs]

/-- not vacuous: the symmetric beam splitter is unitary -/
example (θ : ℝ) : !![Complex.cos θ, Complex.I * Complex.sin θ; Complex.I * Complex.sin θ, Complex.cos θ] ∈ Matrix.unitaryGroup (Fin 2) ℂ := by
  have e := Complex.sin_sq_add_cos_sq (θ : ℂ)
  have hc : conj (Complex.cos (θ : ℂ)) = Complex.cos θ := by rw [← Complex.cos_conj, Complex.conj_ofReal]
  have hs : conj (Complex.sin (θ : ℂ)) = Complex.sin θ := by rw [← Complex.sin_conj, Complex.conj_ofReal]
  rw [Matrix.mem_unitaryGroup_iff']
  ext i j
  rw [Matrix.mul_apply, Fin.sum_univ_two]
  fin_cases i <;> fin_cases j <;> simp [Matrix.star_apply, hc, hs]
  · linear_combination e - (Complex.sin θ) ^ 2 * Complex.I_mul_I
  · ring
  · ring
  · linear_combination e - (Complex.sin θ) ^ 2 * Complex.I_mul_I

end QNET.SLH
