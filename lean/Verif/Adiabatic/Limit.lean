import Verif.Adiabatic.Alg
import Mathlib.RingTheory.LocalRing.Basic
import Mathlib.LinearAlgebra.Matrix.ConjTranspose
import Mathlib.LinearAlgebra.Matrix.SemiringInverse
import Mathlib.Tactic.FieldSimp

/-! # The limiting model and the generators (C67) -/

namespace QNET.Adiabatic

open Finset

variable {A : Type} [Ring A] [StarRing A] [Algebra ℂ A]

/-- The generator in terms of the coefficients `K`, `L† = G`, `M = N L`, `N` of the adjoint equation -/
noncomputable def gen' (n : ℕ) (K : A) (G : ℕ → A) (M : ℕ → A) (N : ℕ → ℕ → A) (one : A) (α β : ℕ → ℂ) : A :=
  K + ∑ i ∈ range n, β i • G i - ∑ i ∈ range n, star (α i) • M i
    + ∑ i ∈ range n, ∑ j ∈ range n, (star (α i) * β j) • (N i j - if i = j then one else 0)

theorem gen_mk' (n : ℕ) (S : ℕ → ℕ → A) (L : ℕ → A) (H one : A) (α β : ℕ → ℂ) :
    generator (SLH.mk' n S L H) one α β
      = gen' n (-((1 / 2 : ℂ) • ∑ i ∈ range n, star (L i) * L i) + Complex.I • H) (fun i => star (L i))
          (fun i => ∑ j ∈ range n, star (S j i) * L j) (fun i j => star (S j i)) one α β := by
  have hL : ∀ i ∈ range n, (SLH.mk' n S L H).L i = L i := fun i hi => if_pos (mem_range.mp hi)
  have hS : ∀ i ∈ range n, ∀ j ∈ range n, (SLH.mk' n S L H).S i j = S i j := fun i hi j hj => if_pos ⟨mem_range.mp hi, mem_range.mp hj⟩
  unfold generator gen'
  show -((1 / 2 : ℂ) • ∑ i ∈ range n, _) + Complex.I • H + ∑ i ∈ range n, _ - ∑ i ∈ range n, ∑ j ∈ range n, _ + ∑ i ∈ range n, ∑ j ∈ range n, _ = _
  congr 1
  · congr 1
    · congr 1
      · congr 3
        exact sum_congr rfl fun i hi => by rw [hL i hi]
      · exact sum_congr rfl fun i hi => by rw [hL i hi]
    · refine sum_congr rfl fun i hi => ?_
      rw [smul_sum]
      exact sum_congr rfl fun j hj => by rw [hL j hj, hS j hj i hi]
  · exact sum_congr rfl fun i hi => sum_congr rfl fun j hj => by rw [hS j hj i hi]

variable [StarModule ℂ A]

section

variable {o : Ops A} {Yt P0 : A}

theorem star_hlim : star (hlim o Yt P0) = hlim o Yt P0 := by
  have h : ∀ x : A, star ((1 / Complex.I) • ((1 / 2 : ℂ) • x)) = -((1 / Complex.I) • ((1 / 2 : ℂ) • star x)) := by
    intro x
    rw [star_smul, star_half, ← neg_smul]
    congr 1
    simp
  rw [hlim, h, star_sub, star_star, ← smul_neg, ← smul_neg, neg_sub]

theorem I_hlim : Complex.I • hlim o Yt P0 = (1 / 2 : ℂ) • (klim o Yt P0 - star (klim o Yt P0)) := by
  rw [hlim, smul_smul, mul_one_div_cancel Complex.I_ne_zero, one_smul]

/-- the limiting model has the drift `Klim` -/
theorem drift_lim (R : Rel o) (E : Eliminable o Yt P0) :
    -((1 / 2 : ℂ) • ∑ i ∈ range o.n, star (star (ldlim o Yt P0 i)) * star (ldlim o Yt P0 i)) + Complex.I • star (hlim o Yt P0) = klim o Yt P0 := by
  simp only [star_star]
  rw [star_hlim, I_hlim, ← smul_neg, ← klim_add R E, ← smul_add]
  rw [show klim o Yt P0 + star (klim o Yt P0) + (klim o Yt P0 - star (klim o Yt P0)) = klim o Yt P0 + klim o Yt P0 by abel, smul_add, half_add_half]

/-- the generator of the limiting model -/
theorem gen_lim (R : Rel o) (E : Eliminable o Yt P0) (α β : ℕ → ℂ) :
    generator (evalLimit o Yt P0) P0 α β
      = gen' o.n (klim o Yt P0) (ldlim o Yt P0)
          (fun i => P0 * (∑ l ∈ range o.n, o.N i l * ((star (o.G l) - star (o.F l) * Yt * o.A) * P0))) (nlim o Yt P0) P0 α β := by
  rw [evalLimit, gen_mk', drift_lim R E]
  simp only [star_star]
  unfold gen'
  congr 2
  exact sum_congr rfl fun i hi => by beta_reduce; rw [nlim_ldlim R E (mem_range.mp hi)]

end

/-! ### The generators of the family -/

/-- order `k` of the generator -/
noncomputable def genA (o : Ops A) (α β : ℕ → ℂ) : A :=
  o.A + ∑ i ∈ range o.n, β i • o.F i - ∑ i ∈ range o.n, star (α i) • ∑ j ∈ range o.n, o.N i j * star (o.F j)

/-- order `1` of the generator -/
noncomputable def genB (o : Ops A) (α β : ℕ → ℂ) : A :=
  gen' o.n o.B o.G (fun i => ∑ j ∈ range o.n, o.N i j * star (o.G j)) o.N 1 α β

theorem eval_one {p : Polynomial A} (h : p.natDegree ≤ 1) (k : ℂ) : p.eval (algebraMap ℂ A k) = p.coeff 0 + k • p.coeff 1 := by
  rw [Polynomial.eval_eq_sum_range' (n := 2) (by omega)]
  simp [sum_range_succ, Algebra.smul_def, Algebra.commutes]

theorem eval_two {p : Polynomial A} (h : p.natDegree ≤ 2) (k : ℂ) : p.eval (algebraMap ℂ A k) = p.coeff 0 + k • p.coeff 1 + (k ^ 2) • p.coeff 2 := by
  rw [Polynomial.eval_eq_sum_range' (n := 3) (by omega)]
  simp [sum_range_succ, Algebra.smul_def, Algebra.commutes, ← map_pow]

theorem gen_at {m : KSLH A} (h : Scaled m) (k : ℝ) (α β : ℕ → ℂ) :
    generator (m.at k) 1 α β = ((k : ℂ) ^ 2) • (prepare m).Y + (k : ℂ) • genA (prepare m) α β + genB (prepare m) α β := by
  have hk : star (k : ℂ) = (k : ℂ) := Complex.conj_ofReal k
  have hL : ∀ i ∈ range m.n, (m.L i).eval (algebraMap ℂ A k) = (m.L i).coeff 0 + (k : ℂ) • (m.L i).coeff 1 :=
    fun i hi => eval_one (h.degL i (mem_range.mp hi)) k
  rw [KSLH.at, gen_mk', eval_two h.degH]
  have e1 : ∑ i ∈ range m.n, star ((m.L i).eval (algebraMap ℂ A k)) * (m.L i).eval (algebraMap ℂ A k)
      = ∑ i ∈ range m.n, star ((m.L i).coeff 0) * (m.L i).coeff 0
        + (k : ℂ) • (∑ i ∈ range m.n, star ((m.L i).coeff 0) * (m.L i).coeff 1 + ∑ i ∈ range m.n, star ((m.L i).coeff 1) * (m.L i).coeff 0)
        + ((k : ℂ) ^ 2) • ∑ i ∈ range m.n, star ((m.L i).coeff 1) * (m.L i).coeff 1 := by
    rw [smul_add, smul_sum, smul_sum, smul_sum, ← sum_add_distrib, ← sum_add_distrib, ← sum_add_distrib]
    refine sum_congr rfl fun i hi => ?_
    rw [hL i hi, star_add, star_smul, hk]
    simp only [add_mul, mul_add, smul_mul_assoc, mul_smul_comm, pow_two]
    module
  have e2 : ∀ i ∈ range m.n, β i • star ((m.L i).eval (algebraMap ℂ A k)) = β i • star ((m.L i).coeff 0) + (k : ℂ) • (β i • star ((m.L i).coeff 1)) := by
    intro i hi
    rw [hL i hi, star_add, star_smul, hk, smul_add, smul_comm]
  have e3 : ∀ i, ∑ j ∈ range m.n, star (m.S j i) * (m.L j).eval (algebraMap ℂ A k)
      = ∑ j ∈ range m.n, star (m.S j i) * (m.L j).coeff 0 + (k : ℂ) • ∑ j ∈ range m.n, star (m.S j i) * (m.L j).coeff 1 := by
    intro i
    rw [smul_sum, ← sum_add_distrib]
    exact sum_congr rfl fun j hj => by rw [hL j hj, mul_add, mul_smul_comm]
  unfold gen'
  rw [e1, sum_congr rfl e2]
  simp only [e3, smul_add, sum_add_distrib]
  show _ = ((k : ℂ) ^ 2) • coeffK m 2 + (k : ℂ) • (coeffK m 1 + ∑ i ∈ range m.n, β i • star ((m.L i).coeff 1)
      - ∑ i ∈ range m.n, star (α i) • ∑ j ∈ range m.n, star (m.S j i) * star (star ((m.L j).coeff 1)))
    + (coeffK m 0 + ∑ i ∈ range m.n, β i • star ((m.L i).coeff 0) - ∑ i ∈ range m.n, star (α i) • ∑ j ∈ range m.n, star (m.S j i) * star (star ((m.L j).coeff 0))
      + ∑ i ∈ range m.n, ∑ j ∈ range m.n, (star (α i) * β j) • (star (m.S j i) - if i = j then 1 else 0))
  rw [coeffK_two h, coeffK_one, coeffK_zero]
  simp only [star_star]
  have e4 : ∀ f : ℕ → A, ∑ i ∈ range m.n, star (α i) • (k : ℂ) • f i = (k : ℂ) • ∑ i ∈ range m.n, star (α i) • f i := by
    intro f
    rw [smul_sum]
    exact sum_congr rfl fun i _ => smul_comm _ _ _
  rw [e4, ← smul_sum]
  module

/-! ### Perturbation theory -/

omit [StarRing A] [StarModule ℂ A] in
/-- second-order perturbation theory for `k² Y + k a + b` on the null space of `Y` -/
theorem perturb {Y a b Yt P0 : A} (hY : Y * P0 = 0) (hinv : Y * Yt = 1 - P0) (ha : P0 * a * P0 = 0) {k : ℂ} (hk : k ≠ 0) :
    (k ^ 2 • Y + k • a + b) * (P0 + k⁻¹ • (-(Yt * a * P0)) + (k⁻¹) ^ 2 • (-(Yt * (b - a * Yt * a) * P0)))
      = P0 * (b - a * Yt * a) * P0 + k⁻¹ • (-(a * (Yt * (b - a * Yt * a) * P0)) - b * (Yt * a * P0)) + (k⁻¹) ^ 2 • (-(b * (Yt * (b - a * Yt * a) * P0))) := by
  have h1 : Y * (Yt * a * P0) = a * P0 := by
    rw [← mul_assoc, ← mul_assoc, hinv, sub_mul, one_mul, sub_mul, ha, sub_zero]
  have h2 : Y * (Yt * (b - a * Yt * a) * P0) = (b - a * Yt * a) * P0 - P0 * (b - a * Yt * a) * P0 := by
    rw [← mul_assoc, ← mul_assoc, hinv, sub_mul, one_mul, sub_mul]
  have h3 : (b - a * Yt * a) * P0 = b * P0 - a * (Yt * a * P0) := by noncomm_ring
  simp only [add_mul, mul_add, smul_mul_assoc, mul_smul_comm, mul_neg]
  rw [hY, h1, h2, h3]
  generalize a * P0 = u1, b * P0 = u2, a * (Yt * a * P0) = u3, P0 * (b - a * Yt * a) * P0 = u4, b * (Yt * a * P0) = u5,
    a * (Yt * (b - a * Yt * a) * P0) = u6, b * (Yt * (b - a * Yt * a) * P0) = u7
  match_scalars <;> field_simp <;> ring

section

variable {o : Ops A} {Yt P0 : A}

omit [StarModule ℂ A] in
theorem genA_left (E : Eliminable o Yt P0) (α β : ℕ → ℂ) :
    P0 * genA o α β = P0 * o.A - ∑ i ∈ range o.n, star (α i) • (P0 * ∑ j ∈ range o.n, o.N i j * star (o.F j)) := by
  have h : P0 * ∑ i ∈ range o.n, β i • o.F i = 0 := by
    rw [mul_sum]
    exact sum_eq_zero fun i hi => by rw [mul_smul_comm, E.noF i (mem_range.mp hi), smul_zero]
  rw [genA, mul_sub, mul_add, h, add_zero, mul_sum]
  simp only [mul_smul_comm]

omit [StarModule ℂ A] in
theorem genA_right (E : Eliminable o Yt P0) (α β : ℕ → ℂ) :
    genA o α β * P0 = o.A * P0 + ∑ j ∈ range o.n, β j • (o.F j * P0) := by
  have h : (∑ i ∈ range o.n, star (α i) • ∑ j ∈ range o.n, o.N i j * star (o.F j)) * P0 = 0 := by
    rw [sum_mul]
    refine sum_eq_zero fun i hi => ?_
    rw [smul_mul_assoc, sum_mul, sum_eq_zero, smul_zero]
    intro j hj
    rw [mul_assoc, E_fp E (mem_range.mp hj), mul_zero]
  rw [genA, sub_mul, add_mul, h, sub_zero, sum_mul]
  simp only [smul_mul_assoc]

omit [StarModule ℂ A] in
theorem genA_zero (E : Eliminable o Yt P0) (α β : ℕ → ℂ) : P0 * genA o α β * P0 = 0 := by
  rw [mul_assoc, genA_right E, mul_add, ← mul_assoc, E.noA, zero_add, mul_sum]
  exact sum_eq_zero fun i hi => by rw [mul_smul_comm, ← mul_assoc, E.noF i (mem_range.mp hi), zero_mul, smul_zero]

omit [StarModule ℂ A] in
/-- the effective generator on the null space is the generator of the limiting coefficients -/
theorem effective (E : Eliminable o Yt P0) (α β : ℕ → ℂ) :
    P0 * (genB o α β - genA o α β * Yt * genA o α β) * P0
      = gen' o.n (klim o Yt P0) (ldlim o Yt P0)
          (fun i => P0 * (∑ l ∈ range o.n, o.N i l * ((star (o.G l) - star (o.F l) * Yt * o.A) * P0))) (nlim o Yt P0) P0 α β := by
  have e0 : P0 * (genB o α β - genA o α β * Yt * genA o α β) * P0
      = P0 * genB o α β * P0 - (P0 * genA o α β) * Yt * (genA o α β * P0) := by noncomm_ring
  have eB : P0 * genB o α β * P0 = P0 * o.B * P0 + ∑ i ∈ range o.n, β i • (P0 * o.G i * P0)
      - ∑ i ∈ range o.n, star (α i) • (P0 * (∑ j ∈ range o.n, o.N i j * star (o.G j)) * P0)
      + ∑ i ∈ range o.n, ∑ j ∈ range o.n, (star (α i) * β j) • (P0 * o.N i j * P0 - if i = j then P0 else 0) := by
    simp only [genB, gen', mul_add, add_mul, mul_sub, sub_mul, mul_sum, sum_mul, mul_smul_comm, smul_mul_assoc]
    congr 1
    refine sum_congr rfl fun i _ => sum_congr rfl fun j _ => ?_
    congr 2
    split
    · rw [mul_one, E.proj]
    · rw [mul_zero, zero_mul]
  have eM : ∀ i, P0 * (∑ l ∈ range o.n, o.N i l * ((star (o.G l) - star (o.F l) * Yt * o.A) * P0))
      = P0 * (∑ j ∈ range o.n, o.N i j * star (o.G j)) * P0 - (P0 * ∑ j ∈ range o.n, o.N i j * star (o.F j)) * (Yt * o.A * P0) := by
    intro i
    rw [mul_sum, mul_sum, sum_mul, mul_sum, sum_mul, ← sum_sub_distrib]
    exact sum_congr rfl fun l _ => by noncomm_ring
  have eN : ∀ i ∈ range o.n, ∀ j ∈ range o.n, nlim o Yt P0 i j
      = P0 * o.N i j * P0 + (P0 * ∑ l ∈ range o.n, o.N i l * star (o.F l)) * (Yt * (o.F j * P0)) := by
    intro i hi j hj
    have : ∀ l, P0 * o.N i l * dN o Yt l j * P0 = (P0 * o.N i l * P0) * (if j = l then 1 else 0) + P0 * (o.N i l * star (o.F l)) * (Yt * (o.F j * P0)) := by
      intro l
      rw [dN]
      by_cases h : l = j
      · rw [if_pos h, if_pos h.symm]; noncomm_ring
      · rw [if_neg h, if_neg (Ne.symm h)]; noncomm_ring
    rw [nlim, sum_mul]
    simp only [this, sum_add_distrib]
    rw [sum_delta (mem_range.mp hj), ← sum_mul, ← mul_sum]
  have eL : ∀ i, ldlim o Yt P0 i = P0 * o.G i * P0 - P0 * o.A * (Yt * (o.F i * P0)) := by
    intro i; rw [ldlim]; noncomm_ring
  have eK : klim o Yt P0 = P0 * o.B * P0 - P0 * o.A * (Yt * (o.A * P0)) := by
    rw [klim]; noncomm_ring
  rw [e0, eB, genA_left E, genA_right E, gen']
  have e4 : ∑ i ∈ range o.n, ∑ j ∈ range o.n, (star (α i) * β j) • (nlim o Yt P0 i j - if i = j then P0 else 0)
      = ∑ i ∈ range o.n, ∑ j ∈ range o.n, (star (α i) * β j) • (P0 * o.N i j * P0 - if i = j then P0 else 0)
        + ∑ i ∈ range o.n, ∑ j ∈ range o.n, (star (α i) * β j) • ((P0 * ∑ l ∈ range o.n, o.N i l * star (o.F l)) * (Yt * (o.F j * P0))) := by
    rw [← sum_add_distrib]
    refine sum_congr rfl fun i hi => ?_
    rw [← sum_add_distrib]
    refine sum_congr rfl fun j hj => ?_
    rw [eN i hi j hj, ← smul_add]
    congr 1
    abel
  have eS : ∀ x : A, x * (Yt * ∑ j ∈ range o.n, β j • (o.F j * P0)) = ∑ j ∈ range o.n, β j • (x * (Yt * (o.F j * P0))) := by
    intro x
    rw [mul_sum, mul_sum]
    exact sum_congr rfl fun i _ => by rw [mul_smul_comm, mul_smul_comm]
  have e5 : ∑ i ∈ range o.n, ∑ j ∈ range o.n, (star (α i) * β j) • ((P0 * ∑ l ∈ range o.n, o.N i l * star (o.F l)) * (Yt * (o.F j * P0)))
      = (∑ i ∈ range o.n, star (α i) • (P0 * ∑ l ∈ range o.n, o.N i l * star (o.F l))) * (Yt * ∑ j ∈ range o.n, β j • (o.F j * P0)) := by
    rw [sum_mul]
    refine sum_congr rfl fun i _ => ?_
    rw [eS]
    refine sum_congr rfl fun j _ => ?_
    rw [smul_mul_assoc, smul_smul, mul_comm (β j)]
  rw [e4, e5, eK]
  simp only [eL, eM, smul_sub, sum_sub_distrib]
  have e6 : ∑ i ∈ range o.n, β i • (P0 * o.A * (Yt * (o.F i * P0))) = P0 * o.A * (Yt * ∑ i ∈ range o.n, β i • (o.F i * P0)) := (eS _).symm
  have e7 : ∑ i ∈ range o.n, star (α i) • ((P0 * ∑ j ∈ range o.n, o.N i j * star (o.F j)) * (Yt * o.A * P0))
      = (∑ i ∈ range o.n, star (α i) • (P0 * ∑ j ∈ range o.n, o.N i j * star (o.F j))) * (Yt * o.A * P0) := by
    rw [sum_mul]
    refine sum_congr rfl fun i _ => ?_
    rw [smul_mul_assoc]
  rw [e6, e7]
  noncomm_ring

end

end QNET.Adiabatic
