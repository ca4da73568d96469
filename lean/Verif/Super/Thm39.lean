import Verif.Super.Thm40
import Mathlib.Algebra.Star.Module
import Mathlib.Algebra.Star.BigOperators
import Mathlib.Algebra.Star.Basic
import Mathlib.Algebra.QuadraticAlgebra.Basic
import Mathlib.LinearAlgebra.Matrix.ConjTranspose
import Mathlib.LinearAlgebra.Matrix.Notation
import Mathlib.Algebra.BigOperators.Fin
import Mathlib.Algebra.Module.BigOperators
import Mathlib.Tactic.Module
import Mathlib.Tactic.NoncommRing
import Mathlib.Tactic.LinearCombination

/-! # C39: `liouvillian(H, Ls)` is the Lindblad generator -/

namespace QNET.Super

open QNET.Perm (Res Err)
open QNET.QAlg (QX Ctx mulScal mul val SoundCtx)
open QNET.Indexed (Except.bind_ok mapM_ok_cons mapM_ok_forall₂)

variable {K : Type} [CommRing K] [DecidableEq K] [StarRing K] {A : Type} [Ring A] [StarRing A] [Algebra K A] [StarModule K A]

/-! ### Specification -/

/-- the dissipator `D[L] X = L X L† - ½ (L†L X + X L†L)` -/
def dissipator (half : K) (L X : A) : A := L * X * star L - half • (star L * L * X + X * (star L * L))

/-- the Lindblad generator `-i[H, X] + Σ D[L] X` -/
def generator (half i : K) (H : A) (Ls : List A) (X : A) : A := (-i) • (H * X - X * H) + (Ls.map (fun L => dissipator half L X)).sum

/-- the operator denoted by a collapse operator -/
def colVal (ρ : ℕ → A) : Col K → A
  | .scalar c => algebraMap K A c
  | .op a => val ρ a

/-- what the constants used by the code have to be -/
structure GoodConsts (ρ : ℕ → A) (k : Consts K) : Prop where
  half : 2 * k.half = 1
  i_sq : k.i * k.i = -1
  i_star : star k.i = -k.i
  conj : k.conj = star
  adj : ∀ a, val ρ (k.adj a) = star (ρ a)

variable {ρ : ℕ → A} {σ σ' : ℕ → Module.End K A} {S : SCtx K} {k : Consts K}

theorem sub_val (hS : SoundSCtx ρ σ σ' S) {n : ℕ} {a b r : SX K} (h : sub S n a b = .ok r) : sval ρ σ σ' r = sval ρ σ σ' a - sval ρ σ σ' b := by
  obtain ⟨b', h1, h2⟩ := Except.bind_ok h
  rw [plus_val hS.sortPlus h2]
  ext x
  simp [smul_val _ _ _ _ h1, sub_eq_add_neg]

omit [DecidableEq K] [StarModule K A] in
theorem half_star (hk : GoodConsts ρ k) : star k.half = k.half := by
  have h2 : star (2 : K) = 2 := by
    rw [show (2 : K) = ((2 : ℕ) : K) by norm_num]; exact star_natCast 2
  have h : 2 * star k.half = 1 := by
    have := congrArg star hk.half
    rw [star_mul, star_one, h2] at this
    rw [mul_comm]; exact this
  calc star k.half = (2 * k.half) * star k.half := by rw [hk.half, one_mul]
    _ = (2 * star k.half) * k.half := by ring
    _ = k.half := by rw [h, one_mul]

omit [DecidableEq K] in
/-- a collapse operator that is a multiple of the identity does not contribute -/
theorem dissipator_scalar (hk : GoodConsts ρ k) (c : K) (X : A) : dissipator k.half (algebraMap K A c) X = 0 := by
  have hs : star (algebraMap K A c) = algebraMap K A (star c) := by
    rw [Algebra.algebraMap_eq_smul_one, star_smul, star_one, Algebra.algebraMap_eq_smul_one]
  unfold dissipator
  rw [hs]
  simp only [Algebra.algebraMap_eq_smul_one, smul_mul_assoc, mul_smul_comm, one_mul, mul_one, ← two_smul K, smul_smul]
  rw [← sub_smul]
  convert zero_smul K X using 2
  linear_combination (-(c * star c)) * hk.half

theorem lindblad_val (hS : SoundSCtx ρ σ σ' S) (hk : GoodConsts ρ k) {n : ℕ} {L : Col K} {r : SX K} (h : lindblad S k n L = .ok r) (X : A) :
    sval ρ σ σ' r X = dissipator k.half (colVal ρ L) X := by
  cases L with
  | scalar c =>
    cases h
    rw [colVal, dissipator_scalar hk]
    simp [sval]
  | op c =>
    simp only [lindblad] at h
    obtain ⟨cd, h1, h⟩ := Except.bind_ok h
    obtain ⟨x, h2, h⟩ := Except.bind_ok h
    obtain ⟨cdc, h3, h⟩ := Except.bind_ok h
    obtain ⟨y, h5, h6⟩ := Except.bind_ok h
    obtain ⟨z, h7, h8⟩ := Except.bind_ok h5
    rw [hk.conj] at h1
    have e1 := QAlg.C53_adjoint hS.ops hk.adj _ _ _ h1
    have e3 := mul_val hS.ops h3
    rw [sub_val hS h6, (times_sound hS n).1 _ _ h2, smul_val _ _ _ _ h8, plus_val hS.sortPlus h7]
    simp only [colVal, dissipator, sval, List.map_cons, List.map_nil, List.prod_cons, List.prod_nil, mul_one, List.sum_cons, List.sum_nil, add_zero,
      LinearMap.sub_apply, Module.End.mul_apply, LinearMap.mulLeft_apply, LinearMap.mulRight_apply, LinearMap.smul_apply, LinearMap.add_apply, e1, e3,
      mul_assoc]

/-- C39: the super-operator returned by `liouvillian(H, Ls)` acts on every operator `X` as `-i[H,X] + Σ (L X L† - ½(L†L X + X L†L))`. -/
theorem C39_action (hS : SoundSCtx ρ σ σ' S) (hk : GoodConsts ρ k) {n : ℕ} {H : QX K} {Ls : List (Col K)} {s : SX K}
    (h0 : liouvillian S k n H Ls = .ok s) (X : A) : sval ρ σ σ' s X = generator k.half k.i (val ρ H) (Ls.map (colVal ρ)) X := by
  unfold liouvillian at h0
  obtain ⟨t, h1, h⟩ := Except.bind_ok h0
  obtain ⟨ds, h2, h3⟩ := Except.bind_ok h
  obtain ⟨c, h4, h5⟩ := Except.bind_ok h1
  rw [plus_val hS.sortPlus h3]
  simp only [List.map_cons, List.sum_cons, LinearMap.add_apply, generator]
  congr 1
  · rw [smul_val _ _ _ _ h5, sub_val hS h4]
    simp only [sval, LinearMap.smul_apply, LinearMap.sub_apply, LinearMap.mulLeft_apply, LinearMap.mulRight_apply]
  · have h6 := mapM_ok_forall₂ h2
    clear h2 h3 h h0
    induction h6 with
    | nil => simp
    | cons h1 _ ih =>
      simp only [List.map_cons, List.sum_cons, LinearMap.add_apply]
      rw [lindblad_val hS hk h1, ih]

/-- C39: applying the Liouvillian to an operator yields an expression for the right hand side of the master equation. -/
theorem C39_apply (hS : SoundSCtx ρ σ σ' S) (hk : GoodConsts ρ k) {n m : ℕ} {H : QX K} {Ls : List (Col K)} {s : SX K} {X r : QX K}
    (h : liouvillian S k n H Ls = .ok s) (h' : apply S m s X = .ok r) :
    val ρ r = generator k.half k.i (val ρ H) (Ls.map (colVal ρ)) (val ρ X) := by
  rw [C40_apply hS _ _ _ _ h', C39_action hS hk h]

/-- C39: the Liouvillian preserves every trace: the derivative of the trace is zero. -/
theorem C39_trace (hS : SoundSCtx ρ σ σ' S) (hk : GoodConsts ρ k) {n : ℕ} {H : QX K} {Ls : List (Col K)} {s : SX K}
    (h : liouvillian S k n H Ls = .ok s) (tr : A →ₗ[K] K) (hcyc : ∀ x y, tr (x * y) = tr (y * x)) (X : A) : tr (sval ρ σ σ' s X) = 0 := by
  have hd : ∀ L : A, tr (dissipator k.half L X) = 0 := by
    intro L
    unfold dissipator
    rw [map_sub, map_smul, map_add, hcyc (L * X), hcyc X, ← mul_assoc, smul_eq_mul]
    linear_combination (-tr (star L * L * X)) * hk.half
  rw [C39_action hS hk h, generator, map_add, map_smul, map_sub, hcyc X, sub_self, smul_zero, zero_add, map_list_sum, List.map_map]
  apply List.sum_eq_zero
  intro y hy
  obtain ⟨L, -, rfl⟩ := List.mem_map.mp hy
  exact hd L

/-- C39: for a Hermitian `H`, the Liouvillian maps adjoints to adjoints; in particular it maps Hermitian operators to Hermitian operators. -/
theorem C39_hermitian (hS : SoundSCtx ρ σ σ' S) (hk : GoodConsts ρ k) {n : ℕ} {H : QX K} {Ls : List (Col K)} {s : SX K}
    (h : liouvillian S k n H Ls = .ok s) (hH : star (val ρ H) = val ρ H) (X : A) : sval ρ σ σ' s (star X) = star (sval ρ σ σ' s X) := by
  have hh := half_star hk
  have hd : ∀ L : A, dissipator k.half L (star X) = star (dissipator k.half L X) := by
    intro L
    unfold dissipator
    simp only [star_sub, star_smul, star_add, star_mul, star_star, hh, mul_assoc]
    rw [add_comm]
  rw [C39_action hS hk h, C39_action hS hk h, generator, generator, star_add]
  congr 1
  · rw [star_smul, star_neg, hk.i_star, star_sub, star_mul, star_mul, hH]
    module
  · rw [show star ((List.map (fun L => dissipator k.half L X) (Ls.map (colVal ρ))).sum) = starAddEquiv _ from rfl, map_list_sum]
    simp only [List.map_map]
    congr 1
    exact List.map_congr_left (fun L _ => hd _)

omit [DecidableEq K] [StarModule K A] in
/-- C39: the generator does not change when the collapse operators are mixed by an isometry `U` (`U†U = 1`) of scalars. -/
theorem mix_invariant {half : K} [StarModule K A] {N M : ℕ} (U : Fin M → Fin N → K) (hU : ∀ a b, ∑ j, star (U j a) * U j b = if a = b then 1 else 0)
    (L : Fin N → A) (X : A) :
    ∑ j, dissipator half (∑ a, U j a • L a) X = ∑ a, dissipator half (L a) X := by
  have key : ∀ F : A → A → A, (∀ x y z, F (x + y) z = F x z + F y z) → (∀ x y z, F x (y + z) = F x y + F x z) →
      (∀ (c : K) x y, F (c • x) y = c • F x y) → (∀ (c : K) x y, F x (c • y) = star c • F x y) →
      ∑ j, F (∑ a, U j a • L a) (∑ a, U j a • L a) = ∑ a, F (L a) (L a) := by
    intro F f1 f2 f3 f4
    have s1 : ∀ (t : Finset (Fin N)) (f : Fin N → A) y, F (∑ a ∈ t, f a) y = ∑ a ∈ t, F (f a) y := by
      intro t f y
      exact map_sum (AddMonoidHom.mk' (fun x => F x y) (fun x z => f1 x z y)) f t
    have s2 : ∀ (t : Finset (Fin N)) (f : Fin N → A) x, F x (∑ a ∈ t, f a) = ∑ a ∈ t, F x (f a) := by
      intro t f x
      exact map_sum (AddMonoidHom.mk' (fun y => F x y) (fun y z => f2 x y z)) f t
    simp only [s1, s2, f3, f4, smul_smul]
    rw [Finset.sum_comm]
    refine Finset.sum_congr rfl (fun a _ => ?_)
    rw [Finset.sum_comm]
    simp only [← Finset.sum_smul]
    have : ∀ b, (∑ j, U j a * star (U j b)) = if a = b then 1 else 0 := by
      intro b
      simp only [mul_comm (U _ a)]
      rw [hU b a]
      by_cases e : a = b <;> simp [e, eq_comm]
    simp [this]
  have h1 := key (fun x y => x * X * star y) (by intros; simp [add_mul]) (by intros; simp [mul_add]) (by intros; simp) (by intros; simp [star_smul])
  have h2 := key (fun x y => star y * x * X + X * (star y * x)) (by intros; simp only [mul_add, add_mul]; abel)
    (by intros; simp only [star_add, mul_add, add_mul]; abel) (by intros; simp) (by intros; simp [star_smul])
  unfold dissipator
  rw [Finset.sum_sub_distrib, Finset.sum_sub_distrib, ← Finset.smul_sum, ← Finset.smul_sum, h1, h2]

/-- C39: mixing the collapse operators by a matrix `U` of scalars with `U†U = 1` (in particular a unitary matrix) does not change the action of the
Liouvillian: if the collapse operators `Ls'` denote `Σ_a U_{ja} L_a`, both Liouvillians act in the same way. -/
theorem C39_unitary (hS : SoundSCtx ρ σ σ' S) (hk : GoodConsts ρ k) {n n' N M : ℕ} {H : QX K} {L : Fin N → Col K} {L' : Fin M → Col K} {s s' : SX K}
    (h : liouvillian S k n H (List.ofFn L) = .ok s) (h' : liouvillian S k n' H (List.ofFn L') = .ok s')
    (U : Fin M → Fin N → K) (hU : ∀ a b, ∑ j, star (U j a) * U j b = if a = b then 1 else 0)
    (hL : ∀ j, colVal ρ (L' j) = ∑ a, U j a • colVal ρ (L a)) :
    sval ρ σ σ' s' = sval ρ σ σ' s := by
  ext X
  rw [C39_action hS hk h, C39_action hS hk h', generator, generator]
  congr 1
  simp only [List.map_ofFn, List.sum_ofFn, Function.comp_def]
  rw [← mix_invariant U hU (fun a => colVal ρ (L a)) X]
  exact Finset.sum_congr rfl (fun j _ => by rw [hL])

omit [DecidableEq K] in
theorem shift_one (hk : GoodConsts ρ k) (L X : A) (w : K) :
    dissipator k.half (L + algebraMap K A w) X
      = dissipator k.half L X + k.half • ((star w • L - w • star L) * X - X * (star w • L - w • star L)) := by
  have hs : star (algebraMap K A w) = algebraMap K A (star w) := by
    rw [Algebra.algebraMap_eq_smul_one, star_smul, star_one, Algebra.algebraMap_eq_smul_one]
  unfold dissipator
  rw [star_add, hs]
  simp only [Algebra.algebraMap_eq_smul_one, mul_add, add_mul, smul_mul_assoc, mul_smul_comm, one_mul, mul_one, mul_sub, sub_mul, smul_add, smul_sub]
  rw [← sub_eq_zero]
  calc _ = (1 - 2 * k.half) • (w • (X * star L) + star w • (L * X) + w • star w • X) := by module
    _ = 0 := by rw [hk.half, sub_self, zero_smul]

/-- C39: shifting the collapse operators by multiples of the identity, `L_j ↦ L_j + w_j`, and the Hamiltonian by `(1/2i) Σ (w_j* L_j - w_j L_j†)` does not
change the action of the Liouvillian. -/
theorem C39_shift (hS : SoundSCtx ρ σ σ' S) (hk : GoodConsts ρ k) {n n' : ℕ} {H H' : QX K} {Ls Ls' : List (Col K)} {s s' : SX K}
    (h : liouvillian S k n H Ls = .ok s) (h' : liouvillian S k n' H' Ls' = .ok s') (w : List K) (hw : w.length = Ls.length)
    (hL : Ls'.map (colVal ρ) = List.zipWith (fun L w => colVal ρ L + algebraMap K A w) Ls w)
    (hH : val ρ H' = val ρ H + (List.zipWith (fun L w => (-(k.half * k.i)) • (star w • colVal ρ L - w • star (colVal ρ L))) Ls w).sum) :
    sval ρ σ σ' s' = sval ρ σ σ' s := by
  ext X
  rw [C39_action hS hk h, C39_action hS hk h', generator, generator, hL, hH]
  clear h h' hL hH
  generalize val ρ H = H0
  have hi : ∀ Y : A, (-k.i) • (-(k.half * k.i)) • Y = (-k.half) • Y := by
    intro Y
    rw [smul_smul]
    congr 1
    linear_combination (k.half) * hk.i_sq
  induction Ls generalizing w H0 with
  | nil => simp
  | cons L Ls ih =>
    cases w with
    | nil => simp at hw
    | cons w ws =>
      simp only [List.zipWith_cons_cons, List.sum_cons, List.map_cons]
      have := ih ws (by simpa using hw) (H0 + (-(k.half * k.i)) • (star w • colVal ρ L - w • star (colVal ρ L)))
      rw [← add_assoc H0, add_left_comm, this, shift_one hk]
      generalize (star w • colVal ρ L - w • star (colVal ρ L)) = D
      rw [add_mul, mul_add, smul_mul_assoc, mul_smul_comm]
      have e : (-k.i) • (H0 * X + (-(k.half * k.i)) • (D * X) - (X * H0 + (-(k.half * k.i)) • (X * D)))
          = (-k.i) • (H0 * X - X * H0) + (-k.half) • (D * X - X * D) := by
        rw [← hi (D * X - X * D)]
        module
      rw [e]
      module

omit [StarRing K] in
/-- C39 refuted: `commutator(A, B)` treats the number `0` like a missing second argument: it returns the super-operator `[A, .]` instead of the operator
`[A, 0] = 0`. -/
theorem C39_refuted_commutator_zero (S : SCtx K) (n : ℕ) (a : QX K) :
    commutator2 S n a (.number 0) = commutator2 S n a .none ∧ ∀ b, commutator2 S n a (.number 0) ≠ .ok (.op b) := by
  refine ⟨by simp [commutator2], fun b h => ?_⟩
  simp only [commutator2, if_true] at h
  obtain ⟨x, -, h2⟩ := QNET.Indexed.Except.map_ok h
  cases h2

omit [StarRing K] [StarRing A] [StarModule K A] in
/-- `commutator(A, B)` for an operator `B` is `A B - B A`. -/
theorem C39_commutator (hS : SoundSCtx ρ σ σ' S) {n : ℕ} {a b : QX K} {r : ComRes K} (h : commutator2 S n a (.op b) = .ok r) :
    ∃ x, r = .op x ∧ val ρ x = val ρ a * val ρ b - val ρ b * val ρ a := by
  simp only [commutator2] at h
  obtain ⟨x, h1, h⟩ := Except.bind_ok h
  obtain ⟨y, h2, h⟩ := Except.bind_ok h
  obtain ⟨z, h3, h4⟩ := QNET.Indexed.Except.map_ok h
  refine ⟨z, h4.symm, ?_⟩
  rw [← mul_val hS.ops h1, ← mul_val hS.ops h2]
  exact QAlg.sub_val hS.ops h3

/-! ### A concrete case: 2x2 matrices over the Gaussian rationals -/

/-- Gaussian rationals -/
abbrev QI := QuadraticAlgebra ℚ (-1) 0

/-- symbols: `σ₋` (number 0), `σ₊` (number 1) and `σ_z` (other numbers) -/
def ρ2 : ℕ → Matrix (Fin 2) (Fin 2) QI
  | 0 => !![0, 1; 0, 0]
  | 1 => !![0, 0; 1, 0]
  | _ => !![1, 0; 0, -1]

/-- `1/2`, `I`, complex conjugation and the adjoints of the symbols -/
def k2 : Consts QI := ⟨⟨1/2, 0⟩, ⟨0, 1⟩, star, fun a => match a with
  | 0 => .atom 1
  | 1 => .atom 0
  | a => .atom a⟩

theorem k2_good : GoodConsts (A := Matrix (Fin 2) (Fin 2) QI) ρ2 k2 := by
  refine ⟨by decide +kernel, by decide +kernel, by decide +kernel, rfl, fun a => ?_⟩
  match a with
  | 0 => decide +kernel
  | 1 => decide +kernel
  | a + 2 => 
    have : ∀ b, ρ2 (b + 2) = !![1, 0; 0, -1] := fun b => rfl
    show ρ2 (a + 2) = star (ρ2 (a + 2))
    rw [this]
    decide +kernel

/-- the Liouvillian of a decaying two level system, `H = 3 σ_z`, `L = 2 σ₋`, and a scalar collapse operator -/
example : SoundSCtx (A := Matrix (Fin 2) (Fin 2) QI) ρ2 0 0 (SCtx.plain QI) ∧ star (val ρ2 (.scal (3 : QI) (.atom 2))) = val ρ2 (.scal (3 : QI) (.atom 2)) ∧
    ∃ s, liouvillian (SCtx.plain QI) k2 30 (.scal 3 (.atom 2)) [.op (.scal 2 (.atom 0)), .scalar 5] = .ok s :=
  ⟨SCtx.plain_sound _ _ _, by decide +kernel, (liouvillian (SCtx.plain QI) k2 30 (.scal 3 (.atom 2)) [.op (.scal 2 (.atom 0)), .scalar 5]).toOption.get (by decide +kernel), by kernel_rfl⟩

end QNET.Super
