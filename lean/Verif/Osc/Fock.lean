import Verif.Osc.Model
import Mathlib.Analysis.Complex.CauchyIntegral
import Mathlib.Analysis.Complex.TaylorSeries
import Mathlib.Analysis.Calculus.IteratedDeriv.Lemmas
import Mathlib.Analysis.Calculus.Deriv.ZPow
import Mathlib.Analysis.SpecialFunctions.ExpDeriv

/-!
# The Bargmann-Fock representation

Specification for C37: states are entire functions of a complex variable `z`; `|n>` is `z^n / √n!`, the creation operator multiplies by
`z`, the annihilation operator differentiates, the phase operator is the rotation `f(z) -> f(e^(iu) z)` and the displacement operator is
`f(z) -> exp(u z - |u|²/2) f(z - u*)`; `<k|f>` is the coefficient `f^(k)(0)/√k!` of `|k>` in the expansion of `f`.
-/

namespace QNET.Osc

/-- entire functions -/
def Entire : Submodule ℂ (ℂ → ℂ) where
  carrier := {f | Differentiable ℂ f}
  add_mem' hf hg := hf.add hg
  zero_mem' := differentiable_const 0
  smul_mem' c _ hf := hf.const_smul c

theorem Entire.diff (f : Entire) : Differentiable ℂ f.1 := f.2

theorem deriv_entire {f : ℂ → ℂ} (hf : Differentiable ℂ f) : Differentiable ℂ (deriv f) :=
  differentiableOn_univ.mp ((differentiableOn_univ.mpr hf).deriv isOpen_univ)

/-- creation: multiplication by `z` -/
def up : Module.End ℂ Entire where
  toFun f := ⟨fun z => z * f.1 z, differentiable_id.mul f.2⟩
  map_add' f g := by ext z; simp [mul_add]
  map_smul' c f := by ext z; simp; ring

/-- annihilation: differentiation -/
noncomputable def down : Module.End ℂ Entire where
  toFun f := ⟨deriv f.1, deriv_entire f.2⟩
  map_add' f g := by
    ext z
    exact deriv_add f.2.differentiableAt g.2.differentiableAt
  map_smul' c f := by
    ext z
    exact deriv_const_smul c f.2.differentiableAt

/-- rotation -/
noncomputable def rot (u : ℂ) : Module.End ℂ Entire where
  toFun f := ⟨fun z => f.1 (Complex.exp (Complex.I * u) * z), f.2.comp (differentiable_id.const_mul _)⟩
  map_add' f g := by ext z; simp
  map_smul' c f := by ext z; simp

/-- displacement -/
noncomputable def disp (u : ℂ) : Module.End ℂ Entire where
  toFun f := ⟨fun z => Complex.exp (u * z - u * (starRingEnd ℂ) u / 2) * f.1 (z - (starRingEnd ℂ) u),
    ((differentiable_id.const_mul u).sub_const _).cexp.mul (f.2.comp (differentiable_id.sub_const _))⟩
  map_add' f g := by ext z; simp [mul_add]
  map_smul' c f := by ext z; simp; ring

/-- `√n!` -/
noncomputable def sqf (n : ℕ) : ℂ := (Real.sqrt n.factorial : ℝ)

theorem sqf_ne (n : ℕ) : sqf n ≠ 0 := by
  unfold sqf
  rw [Complex.ofReal_ne_zero, Real.sqrt_ne_zero']
  exact_mod_cast n.factorial_pos

theorem sqf_sq (n : ℕ) : sqf n * sqf n = n.factorial := by
  unfold sqf
  rw [← Complex.ofReal_mul, Real.mul_self_sqrt (by positivity)]
  simp

theorem sqf_succ (n : ℕ) : sqf (n + 1) = sq (n + 1) * sqf n := by
  unfold sqf sq
  rw [← Complex.ofReal_mul, ← Real.sqrt_mul (by positivity), Nat.factorial_succ]
  push_cast
  rfl

theorem sq_sq (n : ℕ) : sq n * sq n = n := by
  unfold sq
  rw [← Complex.ofReal_mul, Real.mul_self_sqrt (by positivity)]
  simp

/-- `|n>` -/
noncomputable def basisFn (n : ℕ) : Entire := ⟨fun z => z ^ n / sqf n, (differentiable_id.pow n).div_const _⟩

/-- `|u> = exp(u z - |u|²/2)` -/
noncomputable def coherentFn (u : ℂ) : Entire :=
  ⟨fun z => Complex.exp (u * z - u * (starRingEnd ℂ) u / 2), ((differentiable_id.const_mul u).sub_const _).cexp⟩

theorem iter_add {f g : ℂ → ℂ} (hf : Differentiable ℂ f) (hg : Differentiable ℂ g) (k : ℕ) (x : ℂ) :
    iteratedDeriv k (fun z => f z + g z) x = iteratedDeriv k f x + iteratedDeriv k g x :=
  iteratedDeriv_fun_add hf.contDiff.contDiffAt hg.contDiff.contDiffAt

/-- `<k|f>` -/
noncomputable def bra (k : ℕ) : Entire →ₗ[ℂ] ℂ where
  toFun f := iteratedDeriv k f.1 0 / sqf k
  map_add' f g := by
    have := iter_add f.2 g.2 k 0
    simp only [Submodule.coe_add]
    rw [show (f.1 + g.1) = fun z => f.1 z + g.1 z from rfl, this, add_div]
  map_smul' c f := by
    simp only [Submodule.coe_smul, RingHom.id_apply, smul_eq_mul]
    rw [show (c • f.1) = fun z => c * f.1 z from rfl, iteratedDeriv_const_mul_field, mul_div_assoc]

/-- `|j><k|` -/
noncomputable def sig (j k : ℕ) : Module.End ℂ Entire := (bra k).smulRight (basisFn j)

theorem sig_apply (j k : ℕ) (f : Entire) : sig j k f = bra k f • basisFn j := rfl

theorem bra_basis (k n : ℕ) : bra k (basisFn n) = if k = n then 1 else 0 := by
  show iteratedDeriv k (fun z => z ^ n / sqf n) 0 / sqf k = _
  have h1 : (fun z : ℂ => z ^ n / sqf n) = fun z => (sqf n)⁻¹ * z ^ n := by funext z; rw [div_eq_inv_mul]
  rw [h1, iteratedDeriv_const_mul_field, iteratedDeriv_fun_pow_zero]
  split
  · rename_i h; subst h
    have := sqf_ne k
    rw [← sqf_sq]
    field_simp
  · simp

theorem up_basis (n : ℕ) : up (basisFn n) = sq (n + 1) • basisFn (n + 1) := by
  ext z
  show z * (z ^ n / sqf n) = sq (n + 1) * (z ^ (n + 1) / sqf (n + 1))
  rw [sqf_succ]
  have h := sqf_ne (n + 1)
  rw [sqf_succ] at h
  have h1 := left_ne_zero_of_mul h
  have h2 := right_ne_zero_of_mul h
  field_simp
  ring

theorem down_basis_succ (n : ℕ) : down (basisFn (n + 1)) = sq (n + 1) • basisFn n := by
  ext z
  show deriv (fun z => z ^ (n + 1) / sqf (n + 1)) z = sq (n + 1) * (z ^ n / sqf n)
  rw [deriv_div_const, deriv_pow_field, sqf_succ]
  have h := sqf_ne (n + 1)
  rw [sqf_succ] at h
  have h1 := left_ne_zero_of_mul h
  have h2 := right_ne_zero_of_mul h
  have h3 := sq_sq (n + 1)
  rw [← h3]
  simp only [Nat.add_sub_cancel]
  field_simp

theorem down_basis_zero : down (basisFn 0) = 0 := by
  ext z
  show deriv (fun z => z ^ 0 / sqf 0) z = 0
  simp

theorem bra_down (k : ℕ) (f : Entire) : bra k (down f) = sq (k + 1) * bra (k + 1) f := by
  show iteratedDeriv k (deriv f.1) 0 / sqf k = sq (k + 1) * (iteratedDeriv (k + 1) f.1 0 / sqf (k + 1))
  rw [← iteratedDeriv_succ', sqf_succ]
  have h := sqf_ne (k + 1)
  rw [sqf_succ] at h
  have h1 := left_ne_zero_of_mul h
  have h2 := right_ne_zero_of_mul h
  field_simp

theorem iter_mul_id {f : ℂ → ℂ} (hf : Differentiable ℂ f) : ∀ k : ℕ,
    iteratedDeriv (k + 1) (fun z => z * f z) = fun z => z * iteratedDeriv (k + 1) f z + (k + 1 : ℕ) * iteratedDeriv k f z := by
  have hd : ∀ k, Differentiable ℂ (iteratedDeriv k f) := by
    intro k
    induction k with
    | zero => rwa [iteratedDeriv_zero]
    | succ k ih => rw [iteratedDeriv_succ]; exact deriv_entire ih
  intro k
  induction k with
  | zero =>
    rw [iteratedDeriv_one]
    funext z
    rw [deriv_fun_mul differentiableAt_fun_id hf.differentiableAt, iteratedDeriv_one]
    simp; ring
  | succ k ih =>
    rw [iteratedDeriv_succ, ih]
    funext z
    rw [deriv_fun_add (differentiableAt_fun_id.fun_mul (hd _).differentiableAt) ((hd _).differentiableAt.const_mul _),
      deriv_fun_mul differentiableAt_fun_id (hd _).differentiableAt, deriv_const_mul _ (hd _).differentiableAt, ← iteratedDeriv_succ,
      ← iteratedDeriv_succ]
    push_cast
    simp; ring

theorem bra_up_succ (k : ℕ) (f : Entire) : bra (k + 1) (up f) = sq (k + 1) * bra k f := by
  show iteratedDeriv (k + 1) (fun z => z * f.1 z) 0 / sqf (k + 1) = sq (k + 1) * (iteratedDeriv k f.1 0 / sqf k)
  rw [iter_mul_id f.2]
  have h := sqf_ne (k + 1)
  rw [sqf_succ] at h ⊢
  have h1 := left_ne_zero_of_mul h
  have h2 := right_ne_zero_of_mul h
  simp only [zero_mul, zero_add]
  rw [← sq_sq (k + 1)]
  field_simp

theorem bra_up_zero (f : Entire) : bra 0 (up f) = 0 := by
  show iteratedDeriv 0 (fun z => z * f.1 z) 0 / sqf 0 = 0
  simp

theorem bra_rot (k : ℕ) (u : ℂ) (f : Entire) : bra k (rot u f) = Complex.exp (Complex.I * u * k) * bra k f := by
  show iteratedDeriv k (fun z => f.1 (Complex.exp (Complex.I * u) * z)) 0 / sqf k = _ * (iteratedDeriv k f.1 0 / sqf k)
  rw [iteratedDeriv_comp_const_mul f.2.contDiff]
  simp only [mul_zero]
  rw [← Complex.exp_nat_mul, mul_comm (k : ℂ), mul_div_assoc]

theorem rot_basis (u : ℂ) (n : ℕ) : rot u (basisFn n) = Complex.exp (Complex.I * u * n) • basisFn n := by
  ext z
  show (Complex.exp (Complex.I * u) * z) ^ n / sqf n = Complex.exp (Complex.I * u * n) * (z ^ n / sqf n)
  rw [mul_pow, ← Complex.exp_nat_mul, mul_comm (n : ℂ), mul_div_assoc]

end QNET.Osc
