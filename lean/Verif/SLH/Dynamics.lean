import Verif.SLH.Thm
import Verif.Super.Thm39
import Mathlib.Analysis.Complex.Basic
import Mathlib.LinearAlgebra.Matrix.ConjTranspose
import Mathlib.LinearAlgebra.Matrix.Trace

/-!
# Equations of motion of an SLH triple (C54)

Model of `SLH.symbolic_master_equation` and `SLH.symbolic_heisenberg_eom`, `src/qnet/algebra/core/circuit_algebra.py` lines 496-568.
As in `Verif/SLH/Model.lean`, operators are the elements of a star-algebra `A` over `ℂ`.
-/

namespace QNET.SLH

open Finset

variable {A : Type} [Ring A] [StarRing A] [Algebra ℂ A]

/-! ### Model -/

/-- `SLH.symbolic_master_equation(rho)`, lines 501-524 -/
noncomputable def masterEq (a : SLH A) (rho : A) : A :=
  (-Complex.I) • (a.H * rho - rho * a.H) +
    ∑ k ∈ range a.n, (a.L k * rho * star (a.L k) - (1 / 2 : ℂ) • (star (a.L k) * a.L k * rho + rho * star (a.L k) * a.L k))

/-- the part of `SLH.symbolic_heisenberg_eom(X)` that does not involve noises, lines 543-549 -/
noncomputable def heisenberg (a : SLH A) (X : A) : A :=
  Complex.I • (a.H * X - X * a.H) +
    ∑ k ∈ range a.n, (star (a.L k) * X * a.L k + -((1 / 2 : ℂ) • (star (a.L k) * a.L k * X + X * star (a.L k) * a.L k)))

/-- `LambdaT = (noises.adjoint().transpose() * noises.transpose()).transpose()`, line 554: entry `(i, j)` is `b_j† b_i`. -/
def lambdaT (b : ℕ → A) (i j : ℕ) : A := star (b j) * b i

/-- `comm = S.adjoint() * X * S - X`, line 562. `Matrix - X` is `Matrix + (-1) * X` (matrix_algebra.py lines 139-140), which adds
`(-1) * X` to **every** entry of the array (matrix_algebra.py line 124). -/
def scatterComm (a : SLH A) (X : A) (i j : ℕ) : A := ∑ k ∈ range a.n, star (a.S k i) * X * a.S k j + (-X)

/-- `SLH.symbolic_heisenberg_eom(X, noises)`, lines 526-568, for a column `b` of noise operators of the same length as `L` (asserted in
line 555). `overlap` is `len(S.space & X.space) > 0` (line 561). Simplification: `expand` and `simplify_scalar` do not change values and are
omitted. -/
noncomputable def heisenbergNoise (a : SLH A) (overlap : Bool) (X : A) (b : ℕ → A) : A :=
  heisenberg a X
    + ∑ j ∈ range a.n, (∑ i ∈ range a.n, star (b i) * star (a.S j i)) * (X * a.L j - a.L j * X)
    + ∑ j ∈ range a.n, (∑ i ∈ range a.n, (star (a.L i) * X - X * star (a.L i)) * a.S i j) * b j
    + if overlap then ∑ i ∈ range a.n, ∑ j ∈ range a.n, scatterComm a X i j * lambdaT b j i else 0

/-! ### Specification -/

/-- The quantum Langevin equation of a triple (Gardiner-Collett / Gough-James): the Lindbladian in the Heisenberg picture,
`dB†·S†[X, L]`, `[L†, X]S·dB` and the gauge term `Σ_ij (Σ_k S_ki† X S_kj - δ_ij X) b_i† b_j`. -/
noncomputable def langevin (a : SLH A) (X : A) (b : ℕ → A) : A :=
  heisenberg a X
    + ∑ j ∈ range a.n, (∑ i ∈ range a.n, star (b i) * star (a.S j i)) * (X * a.L j - a.L j * X)
    + ∑ j ∈ range a.n, (∑ i ∈ range a.n, (star (a.L i) * X - X * star (a.L i)) * a.S i j) * b j
    + ∑ i ∈ range a.n, ∑ j ∈ range a.n, (∑ k ∈ range a.n, star (a.S k i) * X * a.S k j - if i = j then X else 0) * (star (b i) * b j)

/-! ### C54 -/

theorem list_sum_range (f : ℕ → A) (n : ℕ) : ((List.range n).map f).sum = ∑ k ∈ range n, f k := by
  induction n with
  | zero => simp
  | succ n ih => rw [List.range_succ, List.map_append, List.sum_append, ih, Finset.sum_range_succ]; simp

/-- the master equation is the Lindblad generator of `(H, [L_0, ..., L_{n-1}])` of `Verif/Super/Thm39.lean` -/
theorem masterEq_generator (a : SLH A) (X : A) :
    masterEq a X = Super.generator (1 / 2 : ℂ) Complex.I a.H ((List.range a.n).map a.L) X := by
  unfold masterEq Super.generator
  rw [List.map_map, ← list_sum_range]
  simp only [Function.comp_def, Super.dissipator, mul_assoc]

/-- C54: `symbolic_master_equation(rho)` is the result of `symbolic_liouvillian()` (i.e. `liouvillian(H, L)`) applied to `rho`. -/
theorem C54_master_liouvillian [StarModule ℂ A] {ρ : ℕ → A} {σ σ' : ℕ → Module.End ℂ A} {S : Super.SCtx ℂ} {k : Super.Consts ℂ}
    (hS : Super.SoundSCtx ρ σ σ' S) (hk : Super.GoodConsts ρ k) (hi : k.i = Complex.I) {a : SLH A} {n : ℕ} {H : QAlg.QX ℂ} {Ls : List (Super.Col ℂ)}
    {s : Super.SX ℂ} (h : Super.liouvillian S k n H Ls = .ok s)
    (hH : QAlg.val ρ H = a.H) (hLs : Ls.map (Super.colVal ρ) = (List.range a.n).map a.L) (X : A) :
    Super.sval ρ σ σ' s X = masterEq a X := by
  have hh : k.half = 1 / 2 := by
    have := hk.half
    field_simp
    linear_combination this
  rw [Super.C39_action hS hk h, masterEq_generator, hH, hLs, hi, hh]

/-- C54: master equation and Heisenberg equation are dual: for every cyclic trace, `Tr[X · d(rho)/dt] = Tr[dX/dt · rho]`. -/
theorem C54_duality (a : SLH A) (tr : A →ₗ[ℂ] ℂ) (hcyc : ∀ x y, tr (x * y) = tr (y * x)) (X rho : A) :
    tr (X * masterEq a rho) = tr (heisenberg a X * rho) := by
  unfold masterEq heisenberg
  rw [mul_add, add_mul, map_add, map_add, Finset.mul_sum, Finset.sum_mul, map_sum, map_sum]
  congr 1
  · rw [mul_smul_comm, smul_mul_assoc, map_smul, map_smul, mul_sub, sub_mul, map_sub, map_sub, hcyc X (rho * a.H), mul_assoc rho, hcyc rho,
      ← mul_assoc X, smul_eq_mul, smul_eq_mul]
    ring
  · refine Finset.sum_congr rfl (fun k _ => ?_)
    generalize a.L k = L
    have e1 : tr (X * (L * rho * star L)) = tr (star L * X * L * rho) := by
      rw [hcyc]; simp only [mul_assoc]; rw [hcyc]; simp only [mul_assoc]; rw [hcyc]; simp only [mul_assoc]
    have e2 : tr (X * (star L * L * rho)) = tr (X * star L * L * rho) := by simp only [mul_assoc]
    have e3 : tr (X * (rho * star L * L)) = tr (star L * L * X * rho) := by
      rw [hcyc]; simp only [mul_assoc]; rw [hcyc]; simp only [mul_assoc]
    rw [mul_sub, map_sub, mul_smul_comm, map_smul, mul_add, map_add, e1, e2, e3, add_mul, map_add, neg_mul, map_neg, smul_mul_assoc, map_smul,
      add_mul, map_add]
    simp only [smul_eq_mul]
    ring

/-- C54: the master equation has no effect on the trace, and the identity does not evolve. -/
theorem C54_conserved (a : SLH A) (tr : A →ₗ[ℂ] ℂ) (hcyc : ∀ x y, tr (x * y) = tr (y * x)) (rho : A) :
    tr (masterEq a rho) = 0 ∧ heisenberg a 1 = 0 := by
  have h1 : heisenberg a 1 = 0 := by
    unfold heisenberg
    simp only [mul_one, one_mul, sub_self, smul_zero, zero_add]
    refine Finset.sum_eq_zero (fun k _ => ?_)
    module
  refine ⟨?_, h1⟩
  have := C54_duality a tr hcyc 1 rho
  rwa [h1, one_mul, zero_mul, map_zero] at this

theorem star_heisenberg [StarModule ℂ A] {a : SLH A} (hH : star a.H = a.H) (X : A) : heisenberg a (star X) = star (heisenberg a X) := by
  unfold heisenberg
  rw [star_add, star_sum]
  congr 1
  · rw [star_smul, star_sub, star_mul, star_mul, hH, Complex.star_def, Complex.conj_I]
    module
  · refine Finset.sum_congr rfl (fun k _ => ?_)
    have hh : star (1 / 2 : ℂ) = 1 / 2 := by
      rw [Complex.star_def, map_div₀, map_one, map_ofNat]
    simp only [star_add, star_neg, star_smul, star_mul, star_star, hh, mul_assoc]
    rw [add_comm (star X * _)]

/-- C54: for a Hermitian Hamiltonian, both equations map adjoints to adjoints. -/
theorem C54_hermitian [StarModule ℂ A] {a : SLH A} (hH : star a.H = a.H) (X : A) :
    masterEq a (star X) = star (masterEq a X) ∧ heisenberg a (star X) = star (heisenberg a X) := by
  refine ⟨?_, star_heisenberg hH X⟩
  unfold masterEq
  rw [star_add, star_sum]
  congr 1
  · rw [star_smul, star_sub, star_mul, star_mul, hH, star_neg, Complex.star_def, Complex.conj_I]
    module
  · refine Finset.sum_congr rfl (fun k _ => ?_)
    have hh : star (1 / 2 : ℂ) = 1 / 2 := by
      rw [Complex.star_def, map_div₀, map_one, map_ofNat]
    simp only [star_sub, star_add, star_smul, star_mul, star_star, hh, mul_assoc]
    rw [add_comm (star X * _)]

/-- C54: scattering upstream does not affect the master equation: `G << (S', 0, 0)` has the equations of `G`. -/
theorem C54_static_upstream [StarModule ℂ A] (a b : SLH A) (hL : ∀ i, b.L i = 0) (hH : b.H = 0) (X : A) :
    masterEq (series a b) X = masterEq a X ∧ heisenberg (series a b) X = heisenberg a X := by
  have eH : (series a b).H = a.H := by simp [series, mk', hL, hH, imAdjoint]
  have eL : ∀ i ∈ range a.n, (series a b).L i = a.L i := by
    intro i hi
    rw [series, mk'_L (mem_range.mp hi)]; simp [hL]
  have en : (series a b).n = a.n := rfl
  unfold masterEq heisenberg
  rw [en, eH]
  constructor
  · congr 1; exact Finset.sum_congr rfl (fun k hk => by rw [eL k hk])
  · congr 1; exact Finset.sum_congr rfl (fun k hk => by rw [eL k hk])

/-- scattering downstream by numbers: `(U, 0, 0) << G` has the equations of `G` if `U` is isometric -/
theorem downstream_sum [StarModule ℂ A] {n : ℕ} (u : ℕ → ℕ → ℂ) (hu : ∀ k l, k < n → l < n → ∑ i ∈ range n, star (u i k) * u i l = if k = l then 1 else 0)
    (L : ℕ → A) (F : A →ₗ[ℂ] A →ₗ[ℂ] A) :
    ∑ i ∈ range n, F (star (∑ k ∈ range n, u i k • L k)) (∑ k ∈ range n, u i k • L k) = ∑ k ∈ range n, F (star (L k)) (L k) := by
  simp only [star_sum, star_smul, map_sum, map_smul, LinearMap.sum_apply, LinearMap.smul_apply, Finset.smul_sum, smul_smul]
  rw [Finset.sum_comm]
  refine Finset.sum_congr rfl (fun k hk => ?_)
  rw [Finset.sum_comm]
  have e : ∀ x ∈ range n, (∑ y ∈ range n, (u y k * star (u y x)) • (F (star (L x))) (L k)) = if x = k then F (star (L x)) (L k) else 0 := by
    intro x hx
    rw [← Finset.sum_smul]
    simp only [mul_comm (u _ k)]
    rw [hu x k (mem_range.mp hx) (mem_range.mp hk)]
    by_cases h : x = k <;> simp [h]
  rw [Finset.sum_congr rfl e, Finset.sum_ite_eq' (range n) k, if_pos hk]

/-- C54: a network of numbers downstream (`S = U·1` isometric, `L = 0`, `H = 0`) does not affect the equations of motion of the system. -/
theorem C54_static_downstream [StarModule ℂ A] (a b : SLH A) (hn : a.n = b.n) (u : ℕ → ℕ → ℂ)
    (hu : ∀ k l, k < a.n → l < a.n → ∑ i ∈ range a.n, star (u i k) * u i l = if k = l then 1 else 0)
    (hS : ∀ i j, i < a.n → j < a.n → a.S i j = algebraMap ℂ A (u i j)) (hL : ∀ i, a.L i = 0) (hH : a.H = 0) (X : A) :
    masterEq (series a b) X = masterEq b X ∧ heisenberg (series a b) X = heisenberg b X := by
  have eH : (series a b).H = b.H := by simp [series, mk', hL, hH, imAdjoint]
  have eL : ∀ i ∈ range a.n, (series a b).L i = ∑ k ∈ range a.n, u i k • b.L k := by
    intro i hi
    rw [series, mk'_L (mem_range.mp hi), hL, add_zero]
    refine Finset.sum_congr rfl (fun k hk => ?_)
    rw [hS i k (mem_range.mp hi) (mem_range.mp hk), Algebra.smul_def]
  have en : (series a b).n = a.n := rfl
  have key := downstream_sum u hu b.L
  unfold masterEq heisenberg
  rw [en, eH, ← hn]
  constructor
  · congr 1
    rw [Finset.sum_congr rfl (fun k hk => by rw [eL k hk])]
    have k1 := key ((LinearMap.mul ℂ A).flip.comp (LinearMap.id) |>.comp LinearMap.id |>.compl₁₂ LinearMap.id (LinearMap.mulRight ℂ X))
    have k2 := key ((LinearMap.mul ℂ A).compr₂ (LinearMap.mulRight ℂ X))
    have k3 := key ((LinearMap.mul ℂ A).compr₂ (LinearMap.mulLeft ℂ X))
    simp only [LinearMap.comp_id, LinearMap.compl₁₂_apply, LinearMap.flip_apply, LinearMap.mul_apply', LinearMap.id_apply, LinearMap.mulRight_apply,
      LinearMap.compr₂_apply, LinearMap.mulLeft_apply] at k1 k2 k3
    simp only [Finset.sum_sub_distrib, ← Finset.smul_sum, Finset.sum_add_distrib, mul_assoc] at k1 k2 k3 ⊢
    rw [k1, k2, k3]
  · congr 1
    rw [Finset.sum_congr rfl (fun k hk => by rw [eL k hk])]
    have k1 := key ((LinearMap.mul ℂ A).comp (LinearMap.mulRight ℂ X))
    have k2 := key ((LinearMap.mul ℂ A).compr₂ (LinearMap.mulRight ℂ X))
    have k3 := key ((LinearMap.mul ℂ A).compr₂ (LinearMap.mulLeft ℂ X))
    simp only [LinearMap.comp_apply, LinearMap.mul_apply', LinearMap.mulRight_apply,
      LinearMap.compr₂_apply, LinearMap.mulLeft_apply] at k1 k2 k3
    simp only [Finset.sum_neg_distrib, ← Finset.smul_sum, Finset.sum_add_distrib, mul_assoc] at k1 k2 k3 ⊢
    rw [k1, k2, k3]

/-- C54 (partial): with noises, the result is the quantum Langevin equation if there is at most one channel or the scattering matrix and `X` have no
degree of freedom in common (so that `X` commutes with the isometric `S`). Missing: operator-valued scattering with more than one channel, where
the code is wrong (`C54_refuted_gauge`). -/
theorem C54_langevin_partial {a : SLH A} (hS : Iso a) (overlap : Bool) (X : A) (b : ℕ → A)
    (hov : overlap = false → ∀ i j, i < a.n → j < a.n → Commute X (a.S i j))
    (hn : overlap = true → a.n ≤ 1) : heisenbergNoise a overlap X b = langevin a X b := by
  unfold heisenbergNoise langevin
  congr 1
  cases overlap with
  | false =>
    simp only [Bool.false_eq_true, if_false]
    symm
    refine Finset.sum_eq_zero (fun i hi => Finset.sum_eq_zero (fun j hj => ?_))
    have : ∑ k ∈ range a.n, star (a.S k i) * X * a.S k j = if i = j then X else 0 := by
      have e : ∀ k ∈ range a.n, star (a.S k i) * X * a.S k j = star (a.S k i) * a.S k j * X := by
        intro k hk
        rw [mul_assoc, (hov rfl k j (mem_range.mp hk) (mem_range.mp hj)).eq, mul_assoc]
      rw [Finset.sum_congr rfl e, ← Finset.sum_mul, hS i j (mem_range.mp hi) (mem_range.mp hj)]
      by_cases h : i = j <;> simp [h]
    rw [this, sub_self, zero_mul]
  | true =>
    simp only [if_true]
    refine Finset.sum_congr rfl (fun i hi => Finset.sum_congr rfl (fun j hj => ?_))
    have hij : i = j := by
      have := hn rfl
      have h1 := mem_range.mp hi
      have h2 := mem_range.mp hj
      omega
    rw [scatterComm, lambdaT, if_pos hij, sub_eq_add_neg]

/-- C54: the Langevin equation maps adjoints to adjoints and leaves the identity unchanged, if the noises commute with the system. -/
theorem C54_langevin_flow [StarModule ℂ A] {a : SLH A} (hS : Iso a) (hH : star a.H = a.H) (b : ℕ → A) :
    langevin a 1 b = 0 ∧ ∀ X, (∀ i k l, Commute (b i) (a.S k l) ∧ Commute (b i) (star (a.S k l))) → (∀ i, Commute (b i) X ∧ Commute (b i) (star X)) →
      langevin a (star X) b = star (langevin a X b) := by
  constructor
  · unfold langevin
    have h1 : heisenberg a 1 = 0 := by
      unfold heisenberg
      simp only [mul_one, one_mul, sub_self, smul_zero, zero_add]
      refine Finset.sum_eq_zero (fun k _ => ?_)
      module
    rw [h1]
    simp only [one_mul, mul_one, sub_self, mul_zero, Finset.sum_const_zero, zero_mul, zero_add]
    refine Finset.sum_eq_zero (fun i hi => Finset.sum_eq_zero (fun j hj => ?_))
    rw [hS i j (mem_range.mp hi) (mem_range.mp hj), sub_self, zero_mul]
  · intro X hbS hbX
    have cs : ∀ {x y : A}, Commute x (star y) → Commute (star x) y := fun h => by simpa using h.star_star
    unfold langevin
    simp only [star_add, star_heisenberg hH]
    rw [show ∀ x y z w y' z' w' : A, y' = z → z' = y → w' = w → x + y' + z' + w' = x + y + z + w from
      fun x y z w y' z' w' h1 h2 h3 => by rw [h1, h2, h3]; abel]
    · simp only [star_sum, star_mul, star_sub, star_star, Finset.mul_sum, Finset.sum_mul, mul_assoc]
      rw [Finset.sum_comm]
    · simp only [star_sum, star_mul, star_sub, star_star, Finset.mul_sum, Finset.sum_mul, mul_assoc]
      rw [Finset.sum_comm]
    · rw [star_sum, Finset.sum_congr rfl (fun i _ => star_sum _ _), Finset.sum_comm]
      refine Finset.sum_congr rfl (fun j _ => Finset.sum_congr rfl (fun i _ => ?_))
      have hM : star (∑ k ∈ range a.n, star (a.S k j) * X * a.S k i - if j = i then X else 0)
          = ∑ k ∈ range a.n, star (a.S k i) * star X * a.S k j - if i = j then star X else 0 := by
        simp only [star_sub, star_sum, star_mul, star_star, mul_assoc]
        congr 1
        by_cases h : i = j
        · subst h; simp
        · rw [if_neg h, if_neg (fun e => h e.symm), star_zero]
      have hc : ∀ x : A, Commute (b j) (star x) → Commute (b i) (star x) → Commute (b j) x → Commute (b i) x → Commute (star (b i) * b j) x :=
        fun x h1 h2 h3 h4 => Commute.mul_left (cs h2) h3
      rw [star_mul, hM, star_mul, star_star]
      symm
      apply Commute.eq
      apply Commute.sub_right
      · refine Commute.sum_right _ _ _ (fun k _ => ?_)
        have h1 : ∀ k l, Commute (star (b i)) (star (a.S k l)) := fun k l => (hbS i k l).1.star_star
        have h2 : ∀ k l, Commute (star (b i)) (a.S k l) := fun k l => cs (hbS i k l).2
        exact Commute.mul_right (Commute.mul_right (Commute.mul_left (h1 _ _) (hbS j _ _).2)
          (Commute.mul_left ((hbX i).1.star_star) (hbX j).2)) (Commute.mul_left (h2 _ _) (hbS j _ _).1)
      · split
        · exact Commute.mul_left ((hbX i).1.star_star) (hbX j).2
        · exact Commute.zero_right _

/-! ### The gauge term for operator-valued scattering matrices -/

/-- two channels, `S = diag(P, 1)` with the reflection `P = diag(1, -1)` of a two level system, `L = 0`, `H = 0` -/
noncomputable def gaugeSample : SLH (Matrix (Fin 2) (Fin 2) ℂ) :=
  mk' 2 (fun i j => if i = j then (if i = 0 then !![1, 0; 0, -1] else 1) else 0) (fun _ => 0) 0

theorem gaugeSample_iso : Iso gaugeSample := by
  intro k l hk hl
  have hk : k < 2 := hk
  have hl : l < 2 := hl
  have hn : gaugeSample.n = 2 := rfl
  have hP : star (!![1, 0; 0, -1] : Matrix (Fin 2) (Fin 2) ℂ) * !![1, 0; 0, -1] = 1 := by
    ext i j; fin_cases i <;> fin_cases j <;> simp [Matrix.mul_apply, Matrix.star_apply, Fin.sum_univ_two]
  rw [hn, Finset.sum_range_succ, Finset.sum_range_succ, Finset.sum_range_zero, zero_add]
  simp only [gaugeSample]
  rw [mk'_S (by omega) (by omega), mk'_S (by omega) (by omega), mk'_S (by omega) (by omega), mk'_S (by omega) (by omega)]
  interval_cases k <;> interval_cases l <;> simp [hP]

/-- the reflection commutes with the scattering matrix, so that it is not affected by the scattering -/
theorem gaugeSample_scatter (i j : ℕ) (hi : i < 2) (hj : j < 2) :
    ∑ k ∈ range 2, star (gaugeSample.S k i) * !![1, 0; 0, -1] * gaugeSample.S k j = if i = j then !![1, 0; 0, -1] else 0 := by
  have hP : star (!![1, 0; 0, -1] : Matrix (Fin 2) (Fin 2) ℂ) * !![1, 0; 0, -1] * !![1, 0; 0, -1] = !![1, 0; 0, -1] := by
    ext i j; fin_cases i <;> fin_cases j <;> simp [Matrix.mul_apply, Matrix.star_apply, Fin.sum_univ_two]
  rw [Finset.sum_range_succ, Finset.sum_range_succ, Finset.sum_range_zero, zero_add]
  simp only [gaugeSample]
  rw [mk'_S (by omega) (by omega), mk'_S (by omega) (by omega), mk'_S (by omega) (by omega), mk'_S (by omega) (by omega)]
  interval_cases i <;> interval_cases j <;> simp [hP]

/-- C54 refuted: with two channels and a scattering matrix that acts on the system, the result is not the Langevin equation: `- X` is subtracted from
every entry of the matrix `S† X S`, not only from the diagonal. For `S = diag(σ_z, 1)` and `X = σ_z` (on the space of `S`), which is conserved, the
code yields the derivative `-σ_z (b_0†b_1 + b_1†b_0)`. -/
theorem C54_refuted_gauge : ∃ (X : Matrix (Fin 2) (Fin 2) ℂ) (b : ℕ → Matrix (Fin 2) (Fin 2) ℂ),
    (∃ i, gaugeSample.S i i = X) ∧ (∀ i Y, Commute (b i) Y) ∧ langevin gaugeSample X b = 0 ∧ heisenbergNoise gaugeSample true X b = -(2 * X) ∧ X ≠ 0 := by
  have hn : gaugeSample.n = 2 := rfl
  have hL : ∀ i, gaugeSample.L i = 0 := by intro i; simp [gaugeSample, mk']
  have hH : gaugeSample.H = 0 := rfl
  refine ⟨!![1, 0; 0, -1], fun _ => 1, ⟨0, ?_⟩, fun _ X => Commute.one_left X, ?_, ?_, ?_⟩
  · simp [gaugeSample, mk']
  · unfold langevin heisenberg
    simp only [hL, hH, hn]
    simp only [star_zero, zero_mul, mul_zero, sub_self, smul_zero, add_zero, neg_zero, Finset.sum_const_zero, star_one, mul_one, zero_add]
    refine Finset.sum_eq_zero (fun i hi => Finset.sum_eq_zero (fun j hj => ?_))
    rw [gaugeSample_scatter i j (mem_range.mp hi) (mem_range.mp hj), sub_self]
  · unfold heisenbergNoise heisenberg scatterComm lambdaT
    simp only [hL, hH, hn]
    simp only [star_zero, zero_mul, mul_zero, sub_self, smul_zero, add_zero, neg_zero, Finset.sum_const_zero, if_true, star_one, mul_one, zero_add]
    rw [Finset.sum_congr rfl (fun i hi => Finset.sum_congr rfl (fun j hj => by rw [gaugeSample_scatter i j (mem_range.mp hi) (mem_range.mp hj)]))]
    simp only [Finset.sum_range_succ, Finset.sum_range_zero]
    norm_num [two_mul]
  · intro h
    have := congrFun (congrFun h 0) 0
    simp at this

/-! ### The hypotheses are satisfiable -/

example : Iso gaugeSample ∧ star gaugeSample.H = gaugeSample.H := ⟨gaugeSample_iso, by simp [gaugeSample, mk']⟩

example : ∀ x y : Matrix (Fin 2) (Fin 2) ℂ, Matrix.traceLinearMap (Fin 2) ℂ ℂ (x * y) = Matrix.traceLinearMap (Fin 2) ℂ ℂ (y * x) :=
  fun x y => Matrix.trace_mul_comm x y

/-- `C54_langevin_partial` applies to a beam splitter with numbers as entries and any `X` -/
example (X : ℂ) (b : ℕ → ℂ) : heisenbergNoise sample false X b = langevin sample X b :=
  C54_langevin_partial sample_unitary.1 _ _ _ (fun _ i j _ _ => Commute.all _ _) (by simp)

end QNET.SLH
