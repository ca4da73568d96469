import Verif.Adiabatic.Limit
import Verif.Adiabatic.Semigroup
import Mathlib.Analysis.CStarAlgebra.Matrix

/-! # C67: `eval_adiabatic_limit` returns the adiabatic limit -/

namespace QNET.Adiabatic

open Finset Filter Topology NormedSpace

section

variable {A : Type} [Ring A] [StarRing A] [Algebra ℂ A] [StarModule ℂ A]

/-- C67: on vectors that approximate those of the null space of `Y`, the generators of the model converge to the generator of the model returned by
`eval_adiabatic_limit`, for all coherent input and output fields: the error is of order `1/k`. -/
theorem C67_generator {m : KSLH A} (h : Scaled m) {Yt P0 : A} (E : Eliminable (prepare m) Yt P0) (α β : ℕ → ℂ) :
    ∃ V1 V2 R1 R2 : A, ∀ k : ℝ, k ≠ 0 →
      generator (m.at k) 1 α β * (P0 + ((k : ℂ)⁻¹) • V1 + ((k : ℂ)⁻¹) ^ 2 • V2)
        = generator (evalLimit (prepare m) Yt P0) P0 α β + ((k : ℂ)⁻¹) • R1 + ((k : ℂ)⁻¹) ^ 2 • R2 := by
  refine ⟨-(Yt * genA (prepare m) α β * P0), -(Yt * (genB (prepare m) α β - genA (prepare m) α β * Yt * genA (prepare m) α β) * P0),
    -(genA (prepare m) α β * (Yt * (genB (prepare m) α β - genA (prepare m) α β * Yt * genA (prepare m) α β) * P0))
      - genB (prepare m) α β * (Yt * genA (prepare m) α β * P0),
    -(genB (prepare m) α β * (Yt * (genB (prepare m) α β - genA (prepare m) α β * Yt * genA (prepare m) α β) * P0)), fun k hk => ?_⟩
  rw [gen_at h, perturb E.ker E.inv (genA_zero E α β) (Complex.ofReal_ne_zero.mpr hk), effective E, gen_lim (prepare_rel h) E]

omit [Algebra ℂ A] [StarModule ℂ A] in
theorem nlim_keep {o : Ops A} {Yt P0 : A} (E : Eliminable o Yt P0) {i j : ℕ} (hi : i < o.n) (hj : j < o.n) :
    nlim o Yt P0 i j = ∑ l ∈ range o.n, P0 * o.N i l * dN o Yt l j := by
  have hk := E.keepN i j hi hj
  rw [mul_sub, mul_one, sub_eq_zero] at hk
  rw [nlim, ← hk]

omit [Algebra ℂ A] [StarModule ℂ A] in
theorem star_nlim {o : Ops A} {Yt P0 : A} (E : Eliminable o Yt P0) {i j : ℕ} (hi : i < o.n) (hj : j < o.n) :
    star (nlim o Yt P0 i j) = ∑ l ∈ range o.n, star (dN o Yt l j) * star (o.N i l) * P0 := by
  rw [nlim_keep E hi hj, star_sum]
  exact sum_congr rfl fun l _ => by rw [star_mul, star_mul, E.herm, mul_assoc]

omit [Algebra ℂ A] [StarModule ℂ A] in
/-- `Ñ Ñ† = P0` -/
theorem nlim_coisom {o : Ops A} {Yt P0 : A} (R : Rel o) (E : Eliminable o Yt P0) {k l : ℕ} (hk : k < o.n) (hl : l < o.n) :
    ∑ i ∈ range o.n, nlim o Yt P0 k i * star (nlim o Yt P0 l i) = if k = l then P0 else 0 := by
  have e : ∀ i ∈ range o.n, nlim o Yt P0 k i * star (nlim o Yt P0 l i)
      = ∑ p ∈ range o.n, ∑ q ∈ range o.n, P0 * o.N k p * (dN o Yt p i * star (dN o Yt q i)) * (star (o.N l q) * P0) := by
    intro i hi
    rw [nlim_keep E hk (mem_range.mp hi), star_nlim E hl (mem_range.mp hi), sum_mul]
    refine sum_congr rfl fun p _ => ?_
    rw [mul_sum]
    exact sum_congr rfl fun q _ => by noncomm_ring
  rw [sum_congr rfl e, sum_comm]
  have e2 : ∀ p ∈ range o.n, ∑ i ∈ range o.n, ∑ q ∈ range o.n, P0 * o.N k p * (dN o Yt p i * star (dN o Yt q i)) * (star (o.N l q) * P0)
      = P0 * (o.N k p * star (o.N l p)) * P0 := by
    intro p hp
    rw [sum_comm]
    have : ∀ q ∈ range o.n, ∑ i ∈ range o.n, P0 * o.N k p * (dN o Yt p i * star (dN o Yt q i)) * (star (o.N l q) * P0)
        = (if p = q then 1 else 0) * (P0 * o.N k p * (star (o.N l q) * P0)) := by
      intro q hq
      rw [← sum_mul, ← mul_sum, dN_coisom R E (mem_range.mp hp) (mem_range.mp hq)]
      split <;> simp
    rw [sum_congr rfl this, delta_sum (mem_range.mp hp)]
    noncomm_ring
  rw [sum_congr rfl e2, ← sum_mul, ← mul_sum, R.iso k l hk hl]
  split
  · rw [mul_one, E.proj]
  · rw [mul_zero, zero_mul]

/-- C67: the model returned by `eval_adiabatic_limit` is a physical model on the null space of `Y`: the number of channels is unchanged, all its operators live on the null
space, its Hamiltonian is Hermitian and its scattering matrix satisfies `S† S = 1`. -/
theorem C67_physical {m : KSLH A} (h : Scaled m) {Yt P0 : A} (E : Eliminable (prepare m) Yt P0) :
    let a := evalLimit (prepare m) Yt P0
    a.n = m.n ∧ star a.H = a.H ∧ (∀ k l, k < a.n → l < a.n → ∑ i ∈ range a.n, star (a.S i k) * a.S i l = if k = l then P0 else 0) ∧
      P0 * a.H * P0 = a.H ∧ (∀ i, P0 * a.L i * P0 = a.L i) ∧ ∀ i j, P0 * a.S i j * P0 = a.S i j := by
  intro a
  have R := prepare_rel h
  have hn : a.n = m.n := rfl
  have hpp : ∀ x : A, P0 * (P0 * x * P0) * P0 = P0 * x * P0 := by
    intro x
    rw [show P0 * (P0 * x * P0) * P0 = (P0 * P0) * x * (P0 * P0) by noncomm_ring, E.proj]
  have hsp : ∀ x : A, P0 * x * P0 = x → P0 * star x * P0 = star x := by
    intro x hx
    have := congrArg star hx
    rwa [star_mul, star_mul, E.herm, ← mul_assoc] at this
  refine ⟨hn, ?_, ?_, ?_, ?_, ?_⟩
  · show star (star (hlim _ _ _)) = star (hlim _ _ _)
    rw [star_hlim, star_hlim]
  · intro k l hk hl
    rw [← nlim_coisom R E hk hl]
    refine sum_congr rfl fun i hi => ?_
    show star (if i < m.n ∧ k < m.n then _ else _) * (if i < m.n ∧ l < m.n then _ else _) = _
    rw [if_pos ⟨mem_range.mp hi, hk⟩, if_pos ⟨mem_range.mp hi, hl⟩, star_star]
  · apply hsp
    have hK : P0 * klim (prepare m) Yt P0 * P0 = klim (prepare m) Yt P0 := hpp _
    simp only [hlim, mul_smul_comm, smul_mul_assoc, mul_sub, sub_mul]
    rw [hK, hsp _ hK]
  · intro i
    show P0 * (if i < m.n then _ else _) * P0 = (if i < m.n then _ else _)
    split
    · exact hsp _ (hpp _)
    · rw [mul_zero, zero_mul]
  · intro i j
    show P0 * (if i < m.n ∧ j < m.n then _ else _) * P0 = (if i < m.n ∧ j < m.n then _ else _)
    split
    · apply hsp
      have : nlim (prepare m) Yt P0 j i = P0 * (∑ l ∈ range m.n, (prepare m).N j l * dN (prepare m) Yt l i) * P0 := by
        rw [nlim, mul_sum]
        simp only [mul_assoc]
        rfl
      rw [this]
      exact hpp _
    · rw [mul_zero, zero_mul]

/-- C67: if the operators are matrices (or, more generally, if one-sided inverses of matrices of operators are inverses), the scattering matrix returned by
`eval_adiabatic_limit` is unitary on the null space of `Y`: `S S† = 1`. -/
theorem C67_unitary [IsStablyFiniteRing A] {m : KSLH A} (h : Scaled m) {Yt P0 : A} (E : Eliminable (prepare m) Yt P0) :
    let a := evalLimit (prepare m) Yt P0
    ∀ k l, k < a.n → l < a.n → ∑ j ∈ range a.n, a.S k j * star (a.S l j) = if k = l then P0 else 0 := by
  intro a
  obtain ⟨-, -, hiso, -, -, hS⟩ := C67_physical h E
  intro k l hk hl
  let Q : Matrix (Fin m.n) (Fin m.n) A := Matrix.of fun i j => a.S i j
  let D : Matrix (Fin m.n) (Fin m.n) A := Matrix.diagonal fun _ => P0
  let D1 : Matrix (Fin m.n) (Fin m.n) A := Matrix.diagonal fun _ => 1 - P0
  have hD : D + D1 = 1 := by
    show Matrix.diagonal _ + Matrix.diagonal _ = _
    rw [Matrix.diagonal_add, ← Matrix.diagonal_one]
    congr 1
    funext i
    show P0 + (1 - P0) = 1
    abel
  have hPP : (1 - P0) * (1 - P0) = 1 - P0 := by
    rw [mul_sub, mul_one, sub_mul, one_mul, E.proj, sub_self, sub_zero]
  have hDD : D1 * D1 = D1 := by
    show Matrix.diagonal _ * Matrix.diagonal _ = Matrix.diagonal _
    rw [Matrix.diagonal_mul_diagonal]
    simp only [hPP]
  have hPl : ∀ i j, (1 - P0) * a.S i j = 0 := by
    intro i j
    rw [← hS i j, sub_mul, one_mul, ← mul_assoc, ← mul_assoc, E.proj, sub_self]
  have hPr : ∀ i j, a.S i j * (1 - P0) = 0 := by
    intro i j
    rw [← hS i j, mul_sub, mul_one, mul_assoc _ P0 P0, E.proj, sub_self]
  have hs1 : star (1 - P0) = 1 - P0 := by rw [star_sub, star_one, E.herm]
  have hD1s : D1.conjTranspose = D1 := by
    show (Matrix.diagonal _).conjTranspose = Matrix.diagonal _
    rw [Matrix.diagonal_conjTranspose]
    congr 1
    funext i
    exact hs1
  have hQ1 : D1 * Q = 0 := by
    ext i j
    exact (Matrix.diagonal_mul (fun _ => 1 - P0) Q i j).trans (hPl _ _)
  have hQ2 : Q * D1 = 0 := by
    ext i j
    exact (Matrix.mul_diagonal (fun _ => 1 - P0) Q i j).trans (hPr _ _)
  have hQ3 : D1 * Q.conjTranspose = 0 := by
    have := congrArg Matrix.conjTranspose hQ2
    rwa [Matrix.conjTranspose_mul, hD1s, Matrix.conjTranspose_zero] at this
  have hQ4 : Q.conjTranspose * D1 = 0 := by
    have := congrArg Matrix.conjTranspose hQ1
    rwa [Matrix.conjTranspose_mul, hD1s, Matrix.conjTranspose_zero] at this
  have hQQ : Q.conjTranspose * Q = D := by
    ext i j
    rw [Matrix.mul_apply]
    show ∑ x : Fin m.n, star (a.S x i) * a.S x j = Matrix.diagonal (fun _ => P0) i j
    rw [Fin.sum_univ_eq_sum_range (fun x => star (a.S x i) * a.S x j) m.n, Matrix.diagonal_apply]
    refine (hiso i j i.2 j.2).trans ?_
    simp only [Fin.ext_iff]
  have h1 : (Q.conjTranspose + D1) * (Q + D1) = 1 := by
    rw [add_mul, mul_add, mul_add, hQQ, hQ4, hQ1, hDD, add_zero, zero_add, hD]
  have h2 : (Q + D1) * (Q.conjTranspose + D1) = 1 := mul_eq_one_comm.mp h1
  rw [add_mul, mul_add, mul_add, hQ2, hQ3, hDD, add_zero, zero_add, ← hD] at h2
  have h3 : Q * Q.conjTranspose = D := add_right_cancel h2
  have h4 := congrFun (congrFun h3 ⟨k, hk⟩) ⟨l, hl⟩
  rw [Matrix.mul_apply] at h4
  have h5 : ∑ x : Fin m.n, a.S k x * star (a.S l x) = Matrix.diagonal (fun _ => P0) (⟨k, hk⟩ : Fin m.n) ⟨l, hl⟩ := h4
  rw [Fin.sum_univ_eq_sum_range (fun x => a.S k x * star (a.S l x)) m.n, Matrix.diagonal_apply] at h5
  refine h5.trans ?_
  simp [Fin.ext_iff]

end

/-! ### Convergence -/

section

variable {A : Type} [Ring A] [StarRing A] [Algebra ℂ A] [StarModule ℂ A]

/-- the generator as a sum over channels, with the scattered output amplitudes `T j = Σ S j i α i` -/
theorem generator_eq (a : SLH A) (α β : ℕ → ℂ) :
    generator a 1 α β = -((1 / 2 : ℂ) • ∑ j ∈ range a.n, star (a.L j) * a.L j) + Complex.I • a.H
      + ∑ j ∈ range a.n, (β j • star (a.L j) - star (∑ i ∈ range a.n, α i • a.S j i) * a.L j + β j • star (∑ i ∈ range a.n, α i • a.S j i))
      - (∑ i ∈ range a.n, star (α i) * β i) • (1 : A) := by
  have e1 : ∑ i ∈ range a.n, ∑ j ∈ range a.n, star (α i) • (star (a.S j i) * a.L j)
      = ∑ j ∈ range a.n, star (∑ i ∈ range a.n, α i • a.S j i) * a.L j := by
    rw [sum_comm]
    refine sum_congr rfl fun j _ => ?_
    rw [star_sum, sum_mul]
    exact sum_congr rfl fun i _ => by rw [star_smul, smul_mul_assoc]
  have e2 : ∑ i ∈ range a.n, ∑ j ∈ range a.n, (star (α i) * β j) • (star (a.S j i) - if i = j then (1 : A) else 0)
      = ∑ j ∈ range a.n, β j • star (∑ i ∈ range a.n, α i • a.S j i) - (∑ i ∈ range a.n, star (α i) * β i) • (1 : A) := by
    simp only [smul_sub, sum_sub_distrib]
    congr 1
    · rw [sum_comm]
      refine sum_congr rfl fun j _ => ?_
      rw [star_sum, smul_sum]
      exact sum_congr rfl fun i _ => by rw [star_smul, smul_smul, mul_comm]
    · rw [sum_smul]
      refine sum_congr rfl fun i hi => ?_
      rw [sum_eq_single i]
      · rw [if_pos rfl]
      · intro j _ hj
        rw [if_neg (Ne.symm hj), smul_zero]
      · intro h
        exact absurd hi h
  rw [generator, e1, e2]
  simp only [sum_add_distrib, sum_sub_distrib]
  abel

/-- The generators of a physical model are dissipative up to the normalisation of the coherent states. -/
theorem dissipative {a : SLH A} (hiso : SLH.Iso a) (hH : star a.H = a.H) (α β : ℕ → ℂ) :
    generator a 1 α β + star (generator a 1 α β)
      = -(∑ j ∈ range a.n, star (a.L j - β j • (1 : A) + ∑ i ∈ range a.n, α i • a.S j i) * (a.L j - β j • (1 : A) + ∑ i ∈ range a.n, α i • a.S j i))
        + (∑ i ∈ range a.n, star (α i - β i) * (α i - β i)) • (1 : A) := by
  have hT : ∑ j ∈ range a.n, star (∑ i ∈ range a.n, α i • a.S j i) * (∑ i ∈ range a.n, α i • a.S j i) = (∑ i ∈ range a.n, star (α i) * α i) • (1 : A) := by
    have e : ∀ j, star (∑ i ∈ range a.n, α i • a.S j i) * (∑ i ∈ range a.n, α i • a.S j i)
        = ∑ i ∈ range a.n, ∑ l ∈ range a.n, (star (α i) * α l) • (star (a.S j i) * a.S j l) := by
      intro j
      rw [star_sum, sum_mul]
      refine sum_congr rfl fun i _ => ?_
      rw [mul_sum]
      exact sum_congr rfl fun l _ => by rw [star_smul, smul_mul_assoc, mul_smul_comm, smul_smul]
    simp only [e]
    rw [sum_comm, sum_smul]
    refine sum_congr rfl fun i hi => ?_
    rw [sum_comm]
    have : ∀ l ∈ range a.n, ∑ j ∈ range a.n, (star (α i) * α l) • (star (a.S j i) * a.S j l) = (star (α i) * α l) • (if i = l then (1 : A) else 0) := by
      intro l hl
      rw [← smul_sum, hiso i l (mem_range.mp hi) (mem_range.mp hl)]
    rw [sum_congr rfl this, sum_eq_single i]
    · rw [if_pos rfl]
    · intro j _ hj
      rw [if_neg (Ne.symm hj), smul_zero]
    · intro h
      exact absurd hi h
  have hK : -((1 / 2 : ℂ) • ∑ j ∈ range a.n, star (a.L j) * a.L j) + Complex.I • a.H
      + star (-((1 / 2 : ℂ) • ∑ j ∈ range a.n, star (a.L j) * a.L j) + Complex.I • a.H) = -∑ j ∈ range a.n, star (a.L j) * a.L j :=
    add_star_K (by rw [star_sum]; exact sum_congr rfl fun j _ => by rw [star_mul, star_star]) hH
  rw [generator_eq]
  set T : ℕ → A := fun j => ∑ i ∈ range a.n, α i • a.S j i with hTdef
  set K : A := -((1 / 2 : ℂ) • ∑ j ∈ range a.n, star (a.L j) * a.L j) + Complex.I • a.H with hKdef
  have e1 : star (∑ j ∈ range a.n, (β j • star (a.L j) - star (T j) * a.L j + β j • star (T j)))
      = ∑ j ∈ range a.n, (star (β j) • a.L j - star (a.L j) * T j + star (β j) • T j) := by
    rw [star_sum]
    refine sum_congr rfl fun j _ => ?_
    rw [star_add, star_sub, star_smul, star_smul, star_star, star_star, star_mul, star_star]
  have e2 : ∑ j ∈ range a.n, star (a.L j - β j • (1 : A) + T j) * (a.L j - β j • (1 : A) + T j)
      = ∑ j ∈ range a.n, star (a.L j) * a.L j - ∑ j ∈ range a.n, (β j • star (a.L j) - star (T j) * a.L j + β j • star (T j))
        - ∑ j ∈ range a.n, (star (β j) • a.L j - star (a.L j) * T j + star (β j) • T j) + ∑ j ∈ range a.n, star (T j) * T j
        + (∑ j ∈ range a.n, star (β j) * β j) • (1 : A) := by
    rw [sum_smul, ← sum_sub_distrib, ← sum_sub_distrib, ← sum_add_distrib, ← sum_add_distrib]
    refine sum_congr rfl fun j _ => ?_
    rw [star_add, star_sub, star_smul, star_one]
    simp only [add_mul, mul_add, sub_mul, mul_sub, smul_mul_assoc, mul_smul_comm, one_mul, mul_one]
    module
  have e3 : star ((∑ i ∈ range a.n, star (α i) * β i) • (1 : A)) = (∑ i ∈ range a.n, star (β i) * α i) • (1 : A) := by
    rw [star_smul, star_one, star_sum]
    congr 1
    exact sum_congr rfl fun i _ => by rw [star_mul, star_star]
  have e4 : ∑ i ∈ range a.n, star (α i - β i) * (α i - β i) = ∑ i ∈ range a.n, star (α i) * α i + ∑ i ∈ range a.n, star (β i) * β i
      - ∑ i ∈ range a.n, star (α i) * β i - ∑ i ∈ range a.n, star (β i) * α i := by
    rw [← sum_add_distrib, ← sum_sub_distrib, ← sum_sub_distrib]
    refine sum_congr rfl fun i _ => ?_
    rw [star_sub]; ring
  have hT' : ∑ j ∈ range a.n, star (T j) * T j = (∑ i ∈ range a.n, star (α i) * α i) • (1 : A) := hT
  have e5 : star (K + ∑ j ∈ range a.n, (β j • star (a.L j) - star (T j) * a.L j + β j • star (T j)) - (∑ i ∈ range a.n, star (α i) * β i) • (1 : A))
      = star K + ∑ j ∈ range a.n, (star (β j) • a.L j - star (a.L j) * T j + star (β j) • T j) - (∑ i ∈ range a.n, star (β i) * α i) • (1 : A) := by
    rw [star_sub, star_add, e1, e3]
  show K + ∑ j ∈ range a.n, (β j • star (a.L j) - star (T j) * a.L j + β j • star (T j)) - (∑ i ∈ range a.n, star (α i) * β i) • (1 : A)
    + star (K + ∑ j ∈ range a.n, (β j • star (a.L j) - star (T j) * a.L j + β j • star (T j)) - (∑ i ∈ range a.n, star (α i) * β i) • (1 : A))
    = -(∑ j ∈ range a.n, star (a.L j - β j • (1 : A) + T j) * (a.L j - β j • (1 : A) + T j)) + _
  rw [e5, e2, e4, hT']
  have hsK : star K = -(∑ j ∈ range a.n, star (a.L j) * a.L j) - K := by rw [← hK]; abel
  rw [hsK]
  simp only [sub_smul, add_smul]
  abel

end

/-- C67: convergence. In a C*-algebra of operators, for all constant coherent input and output fields `β`, `α` and all times, the matrix elements of the evolution
of the model converge, on the null space of `Y`, to those of the evolution of the model returned by `eval_adiabatic_limit` as `k → ∞`. -/
theorem C67_convergence {A : Type} [CStarAlgebra A] {m : KSLH A} (h : Scaled m) {Yt P0 : A} (E : Eliminable (prepare m) Yt P0) (α β : ℕ → ℂ)
    {t : ℝ} (ht : 0 ≤ t) :
    Tendsto (fun k : ℝ => exp (t • generator (m.at k) 1 α β) * P0) atTop
      (𝓝 (P0 * exp (t • generator (evalLimit (prepare m) Yt P0) P0 α β))) := by
  obtain ⟨V1, V2, R1, R2, hV⟩ := C67_generator h E α β
  set G := generator (evalLimit (prepare m) Yt P0) P0 α β with hG
  set c : ℝ := (∑ i ∈ range m.n, ‖α i - β i‖ ^ 2) / 2 with hc
  have hinv : Tendsto (fun k : ℝ => ((k : ℂ)⁻¹)) atTop (𝓝 0) := by
    have h1 : Tendsto (fun k : ℝ => ((k⁻¹ : ℝ) : ℂ)) atTop (𝓝 ((0 : ℝ) : ℂ)) :=
      (Complex.continuous_ofReal.tendsto 0).comp tendsto_inv_atTop_zero
    simpa using h1
  have hlimV : ∀ x y z : A, Tendsto (fun k : ℝ => x + ((k : ℂ)⁻¹) • y + ((k : ℂ)⁻¹) ^ 2 • z) atTop (𝓝 x) := by
    intro x y z
    have := (tendsto_const_nhds (x := x)).add (hinv.smul_const y) |>.add ((hinv.pow 2).smul_const z)
    simpa using this
  obtain ⟨C, hC⟩ := (isCompact_Icc (a := (0 : ℝ)) (b := t)).exists_bound_of_continuousOn
    (f := fun s : ℝ => exp ((s * c) • (1 : A))) (by
      have h1 : Continuous fun s : ℝ => exp (s • (c • (1 : A))) :=
        continuous_iff_continuousAt.mpr fun s => (hasDerivAt_exp_smul_const (𝕂 := ℝ) (c • (1 : A)) s).continuousAt
      refine Continuous.continuousOn ?_
      simpa [smul_smul] using h1)
  refine trotter (Vk := fun k : ℝ => P0 + ((k : ℂ)⁻¹) • V1 + ((k : ℂ)⁻¹) ^ 2 • V2) (M := C) ht ?_ (hlimV P0 V1 V2) ?_ ?_
  · refine Eventually.of_forall fun k s hs0 hst => ?_
    have hiso : SLH.Iso (m.at k) := by
      intro i l hi hl
      rw [← h.iso i l hi hl]
      refine sum_congr rfl fun j hj => ?_
      show star (if j < m.n ∧ i < m.n then _ else _) * (if j < m.n ∧ l < m.n then _ else _) = _
      rw [if_pos ⟨mem_range.mp hj, hi⟩, if_pos ⟨mem_range.mp hj, hl⟩]
    have hHk : star (m.at k).H = (m.at k).H := by
      show star (m.H.eval _) = m.H.eval _
      rw [eval_two h.degH, star_add, star_add, star_smul, star_smul, h.herm, h.herm, h.herm]
      have hk : star (k : ℂ) = (k : ℂ) := Complex.conj_ofReal k
      rw [star_pow, hk]
    have hd := dissipative hiso hHk α β
    have h2c : (∑ i ∈ range (m.at k).n, star (α i - β i) * (α i - β i)) • (1 : A) = (2 * c) • (1 : A) := by
      have : (∑ i ∈ range (m.at k).n, star (α i - β i) * (α i - β i)) = ((2 * c : ℝ) : ℂ) := by
        rw [hc, mul_div_cancel₀ _ (two_ne_zero), Complex.ofReal_sum]
        refine sum_congr rfl fun i _ => ?_
        rw [Complex.ofReal_pow, ← Complex.mul_conj', mul_comm]
        rfl
      rw [this]
      exact (Complex.coe_smul (2 * c) (1 : A))
    rw [h2c] at hd
    refine (norm_exp_le ⟨_, _, rfl⟩ hd hs0).trans ?_
    exact hC s ⟨hs0, hst⟩
  · refine (hlimV G R1 R2).congr' ?_
    filter_upwards [eventually_ne_atTop 0] with k hk
    exact (hV k hk).symm
  · rw [hG, gen_lim (prepare_rel h) E, ← effective E, ← mul_assoc, ← mul_assoc, E.proj]

end QNET.Adiabatic
