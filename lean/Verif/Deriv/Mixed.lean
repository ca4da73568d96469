import Verif.Perm.Model
import Mathlib.Analysis.InnerProductSpace.Calculus
import Mathlib.Analysis.InnerProductSpace.Adjoint
import Mathlib.Analysis.InnerProductSpace.LinearMap
import Mathlib.Analysis.Calculus.Deriv.Star
import Mathlib.Analysis.Calculus.Deriv.Prod
import Mathlib.Analysis.Calculus.IteratedDeriv.Lemmas
import Mathlib.Analysis.Calculus.ContDiff.Basic

/-!
# C95: derivatives of expressions with states, operators and super-operators

`QuantumExpression.diff` (`src/qnet/algebra/core/abstract_quantum_algebra.py` lines 127-153) and the `_diff` methods of sums, products, scalar multiples,
adjoints and symbols (lines 358-363, 470-471, 497-498, 548-552, 629-631), of `OperatorTimesKet`, `BraKet`, `KetBra` (`state_algebra.py` lines 519-522,
625-629, 688-692), of `SPre`, `SPost`, `SuperOperatorTimesOperator` (`super_operator_algebra.py` lines 218-219, 252-253, 314-315).

Simplifications: sums and products have two operands (for any number see `C52`); the results are given before `create`, `expand` and `simplify_scalar`
simplify them (which preserves the value); derivatives of sympy expressions are correct; tensor products, traces and indexed sums are left out.
Symbols denote smooth functions of the real symbol `sym`.
-/

namespace QNET.Mixed

open QNET.Perm (Res Err)

/-! ## the code -/

mutual
/-- scalars: `num i k` is the `k`-th derivative of the `i`-th sympy expression; sums, products, `BraKet(a, b)` -/
inductive SX where
  | num (i k : ℕ)
  | zero
  | add (a b : SX)
  | mul (a b : SX)
  | braket (a b : KX)
/-- kets: symbols (and `StateDerivative`s of symbols), `ZeroKet`, multiples, sums, `OperatorTimesKet` -/
inductive KX where
  | sym (i k : ℕ)
  | zero
  | smul (c : SX) (a : KX)
  | add (a b : KX)
  | app (o : OX) (a : KX)
/-- operators: symbols (and `OperatorDerivative`s of symbols), identity, zero, multiples, sums, products, `KetBra(a, b)`, adjoints,
`SuperOperatorTimesOperator` -/
inductive OX where
  | sym (i k : ℕ)
  | one
  | zero
  | smul (c : SX) (a : OX)
  | add (a b : OX)
  | mul (a b : OX)
  | ketbra (a b : KX)
  | adj (a : OX)
  | sapp (p : PX) (a : OX)
/-- super-operators: symbols, identity, zero, multiples, sums, products, `SPre(o)`, `SPost(o)` -/
inductive PX where
  | sym (i k : ℕ)
  | one
  | zero
  | smul (c : SX) (a : PX)
  | add (a b : PX)
  | mul (a b : PX)
  | pre (o : OX)
  | post (o : OX)
end

/-- which sympy expressions and symbols have `sym` among their free symbols -/
structure Dep where
  s : ℕ → Bool
  k : ℕ → Bool
  o : ℕ → Bool
  p : ℕ → Bool

variable (D : Dep)

mutual
/-- `sym in self.free_symbols` (abstract_algebra.py: union over the operands) -/
def SX.free : SX → Bool
  | .num i _ => D.s i
  | .zero => false
  | .add a b => SX.free a || SX.free b
  | .mul a b => SX.free a || SX.free b
  | .braket a b => KX.free a || KX.free b
/-- the same for kets -/
def KX.free : KX → Bool
  | .sym i _ => D.k i
  | .zero => false
  | .smul c a => SX.free c || KX.free a
  | .add a b => KX.free a || KX.free b
  | .app o a => OX.free o || KX.free a
/-- the same for operators -/
def OX.free : OX → Bool
  | .sym i _ => D.o i
  | .one => false
  | .zero => false
  | .smul c a => SX.free c || OX.free a
  | .add a b => OX.free a || OX.free b
  | .mul a b => OX.free a || OX.free b
  | .ketbra a b => KX.free a || KX.free b
  | .adj a => OX.free a
  | .sapp p a => PX.free p || OX.free a
/-- the same for super-operators -/
def PX.free : PX → Bool
  | .sym i _ => D.p i
  | .one => false
  | .zero => false
  | .smul c a => SX.free c || PX.free a
  | .add a b => PX.free a || PX.free b
  | .mul a b => PX.free a || PX.free b
  | .pre o => OX.free o
  | .post o => OX.free o
end

mutual
/-- `diff(sym)` of scalars: zero without the symbol (abstract_quantum_algebra.py lines 140-153), otherwise `_diff` -/
def SX.diff (e : SX) : Res SX :=
  match e with
  | .num i k => .ok (if D.s i then .num i (k + 1) else .zero)
  | .zero => .ok .zero
  | .add a b => if SX.free D a || SX.free D b then SX.diff a >>= fun a' => SX.diff b >>= fun b' => .ok (.add a' b') else .ok .zero
  | .mul a b => if SX.free D a || SX.free D b then SX.diff a >>= fun a' => SX.diff b >>= fun b' => .ok (.add (.mul a' b) (.mul a b')) else .ok .zero
  | .braket a b => if KX.free D a || KX.free D b then KX.diff a >>= fun a' => KX.diff b >>= fun b' => .ok (.add (.braket a' b) (.braket a b')) else .ok .zero
/-- `diff(sym)` of kets -/
def KX.diff (e : KX) : Res KX :=
  match e with
  | .sym i k => .ok (if D.k i then .sym i (k + 1) else .zero)
  | .zero => .ok .zero
  | .smul c a => if SX.free D c || KX.free D a then SX.diff c >>= fun c' => KX.diff a >>= fun a' => .ok (.add (.smul c' a) (.smul c a')) else .ok .zero
  | .add a b => if KX.free D a || KX.free D b then KX.diff a >>= fun a' => KX.diff b >>= fun b' => .ok (.add a' b') else .ok .zero
  | .app o a => if OX.free D o || KX.free D a then OX.diff o >>= fun o' => KX.diff a >>= fun a' => .ok (.add (.app o' a) (.app o a')) else .ok .zero
/-- `diff(sym)` of operators -/
def OX.diff (e : OX) : Res OX :=
  match e with
  | .sym i k => .ok (if D.o i then .sym i (k + 1) else .zero)
  | .one => .ok .zero
  | .zero => .ok .zero
  | .smul c a => if SX.free D c || OX.free D a then SX.diff c >>= fun c' => OX.diff a >>= fun a' => .ok (.add (.smul c' a) (.smul c a')) else .ok .zero
  | .add a b => if OX.free D a || OX.free D b then OX.diff a >>= fun a' => OX.diff b >>= fun b' => .ok (.add a' b') else .ok .zero
  | .mul a b => if OX.free D a || OX.free D b then OX.diff a >>= fun a' => OX.diff b >>= fun b' => .ok (.add (.mul a' b) (.mul a b')) else .ok .zero
  | .ketbra a b => if KX.free D a || KX.free D b then KX.diff a >>= fun a' => KX.diff b >>= fun b' => .ok (.add (.ketbra a' b) (.ketbra a b')) else .ok .zero
  | .adj a => if OX.free D a then OX.diff a >>= fun a' => .ok (.adj a') else .ok .zero
  | .sapp p a => if PX.free D p || OX.free D a then PX.diff p >>= fun p' => OX.diff a >>= fun a' => .ok (.add (.sapp p' a) (.sapp p a')) else .ok .zero
/-- `diff(sym)` of super-operators; `SPre._diff` and `SPost._diff` call `SuperOperatorDerivative(self, {sym: 1})`, but the second parameter of
`QuantumDerivative.__init__` (abstract_quantum_algebra.py line 704) is keyword-only: `TypeError` -/
def PX.diff (e : PX) : Res PX :=
  match e with
  | .sym i k => .ok (if D.p i then .sym i (k + 1) else .zero)
  | .one => .ok .zero
  | .zero => .ok .zero
  | .smul c a => if SX.free D c || PX.free D a then SX.diff c >>= fun c' => PX.diff a >>= fun a' => .ok (.add (.smul c' a) (.smul c a')) else .ok .zero
  | .add a b => if PX.free D a || PX.free D b then PX.diff a >>= fun a' => PX.diff b >>= fun b' => .ok (.add a' b') else .ok .zero
  | .mul a b => if PX.free D a || PX.free D b then PX.diff a >>= fun a' => PX.diff b >>= fun b' => .ok (.add (.mul a' b) (.mul a b')) else .ok .zero
  | .pre o => if OX.free D o then .error .typeError else .ok .zero
  | .post o => if OX.free D o then .error .typeError else .ok .zero
end

/-! ## specification -/

variable {E : Type} [NormedAddCommGroup E] [InnerProductSpace ℂ E] [CompleteSpace E]

/-- super-operators: bounded linear maps on operators -/
def Sop (E : Type) [NormedAddCommGroup E] [InnerProductSpace ℂ E] : Type := (E →L[ℂ] E) →L[ℂ] (E →L[ℂ] E)

noncomputable instance : NormedRing (Sop E) := inferInstanceAs (NormedRing ((E →L[ℂ] E) →L[ℂ] (E →L[ℂ] E)))
noncomputable instance : NormedAlgebra ℂ (Sop E) := inferInstanceAs (NormedAlgebra ℂ ((E →L[ℂ] E) →L[ℂ] (E →L[ℂ] E)))

/-- the operator a super-operator makes of an operator -/
noncomputable def Sop.app (p : Sop E) (x : E →L[ℂ] E) : E →L[ℂ] E := (show (E →L[ℂ] E) →L[ℂ] (E →L[ℂ] E) from p) x

/-- values of the symbols: functions of the real symbol -/
structure Env (E : Type) [NormedAddCommGroup E] [InnerProductSpace ℂ E] where
  s : ℕ → ℝ → ℂ
  k : ℕ → ℝ → E
  o : ℕ → ℝ → (E →L[ℂ] E)
  p : ℕ → ℝ → Sop E

/-- the functions are smooth, and constant unless the symbol occurs -/
structure Env.Ok (V : Env E) : Prop where
  s : ∀ i, ContDiff ℝ (⊤ : ℕ∞) (V.s i)
  k : ∀ i, ContDiff ℝ (⊤ : ℕ∞) (V.k i)
  o : ∀ i, ContDiff ℝ (⊤ : ℕ∞) (V.o i)
  p : ∀ i, ContDiff ℝ (⊤ : ℕ∞) (V.p i)
  cs : ∀ i, D.s i = false → ∀ t u, V.s i t = V.s i u
  ck : ∀ i, D.k i = false → ∀ t u, V.k i t = V.k i u
  co : ∀ i, D.o i = false → ∀ t u, V.o i t = V.o i u
  cp : ∀ i, D.p i = false → ∀ t u, V.p i t = V.p i u

/-- `X -> o X` and `X -> X o` -/
noncomputable def leftMul (o : E →L[ℂ] E) : Sop E := ContinuousLinearMap.mul ℂ (E →L[ℂ] E) o
noncomputable def rightMul (o : E →L[ℂ] E) : Sop E := (ContinuousLinearMap.mul ℂ (E →L[ℂ] E)).flip o

variable (V : Env E)

mutual
/-- the value of a scalar expression, as a function of the symbol -/
noncomputable def SX.val : SX → ℝ → ℂ
  | .num i k, t => iteratedDeriv k (V.s i) t
  | .zero, _ => 0
  | .add a b, t => SX.val a t + SX.val b t
  | .mul a b, t => SX.val a t * SX.val b t
  | .braket a b, t => inner ℂ (KX.val a t) (KX.val b t)
/-- the value of a ket expression -/
noncomputable def KX.val : KX → ℝ → E
  | .sym i k, t => iteratedDeriv k (V.k i) t
  | .zero, _ => 0
  | .smul c a, t => SX.val c t • KX.val a t
  | .add a b, t => KX.val a t + KX.val b t
  | .app o a, t => (OX.val o t) (KX.val a t)
/-- the value of an operator expression -/
noncomputable def OX.val : OX → ℝ → (E →L[ℂ] E)
  | .sym i k, t => iteratedDeriv k (V.o i) t
  | .one, _ => 1
  | .zero, _ => 0
  | .smul c a, t => SX.val c t • OX.val a t
  | .add a b, t => OX.val a t + OX.val b t
  | .mul a b, t => OX.val a t * OX.val b t
  | .ketbra a b, t => InnerProductSpace.rankOne ℂ (KX.val a t) (KX.val b t)
  | .adj a, t => star (OX.val a t)
  | .sapp p a, t => (PX.val p t).app (OX.val a t)
/-- the value of a super-operator expression -/
noncomputable def PX.val : PX → ℝ → Sop E
  | .sym i k, t => iteratedDeriv k (V.p i) t
  | .one, _ => 1
  | .zero, _ => 0
  | .smul c a, t => SX.val c t • PX.val a t
  | .add a b, t => PX.val a t + PX.val b t
  | .mul a b, t => PX.val a t * PX.val b t
  | .pre o, t => leftMul (OX.val o t)
  | .post o, t => rightMul (OX.val o t)
end

mutual
/-- the derivative needs that of some `SPre(o)` or `SPost(o)` where `o` depends on the symbol -/
def SX.bad : SX → Prop
  | .num _ _ => False
  | .zero => False
  | .add a b => SX.bad a ∨ SX.bad b
  | .mul a b => SX.bad a ∨ SX.bad b
  | .braket a b => KX.bad a ∨ KX.bad b
/-- the same for kets -/
def KX.bad : KX → Prop
  | .sym _ _ => False
  | .zero => False
  | .smul c a => SX.bad c ∨ KX.bad a
  | .add a b => KX.bad a ∨ KX.bad b
  | .app o a => OX.bad o ∨ KX.bad a
/-- the same for operators -/
def OX.bad : OX → Prop
  | .sym _ _ => False
  | .one => False
  | .zero => False
  | .smul c a => SX.bad c ∨ OX.bad a
  | .add a b => OX.bad a ∨ OX.bad b
  | .mul a b => OX.bad a ∨ OX.bad b
  | .ketbra a b => KX.bad a ∨ KX.bad b
  | .adj a => OX.bad a
  | .sapp p a => PX.bad p ∨ OX.bad a
/-- the same for super-operators -/
def PX.bad : PX → Prop
  | .sym _ _ => False
  | .one => False
  | .zero => False
  | .smul c a => SX.bad c ∨ PX.bad a
  | .add a b => PX.bad a ∨ PX.bad b
  | .mul a b => PX.bad a ∨ PX.bad b
  | .pre o => OX.free D o = true
  | .post o => OX.free D o = true
end

/-! ## proofs -/

theorem iter_deriv {F : Type} [NormedAddCommGroup F] [NormedSpace ℝ F] {f : ℝ → F} (h : ContDiff ℝ (⊤ : ℕ∞) f) (k : ℕ) (t : ℝ) :
    HasDerivAt (iteratedDeriv k f) (iteratedDeriv (k + 1) f t) t := by
  rw [iteratedDeriv_succ]
  have h1 : Differentiable ℝ (iteratedDeriv k f) := h.differentiable_iteratedDeriv k (by exact_mod_cast WithTop.coe_lt_top k)
  exact (h1 t).hasDerivAt

theorem iter_const {F : Type} [NormedAddCommGroup F] [NormedSpace ℝ F] {f : ℝ → F} (h : ∀ t u, f t = f u) (k : ℕ) (t u : ℝ) :
    iteratedDeriv k f t = iteratedDeriv k f u := by
  have : f = fun _ => f 0 := funext fun t => h t 0
  rw [this]; simp only [iteratedDeriv_const]

theorem bilin : IsBoundedBilinearMap ℝ (fun q : E × E => InnerProductSpace.rankOne ℂ q.1 q.2) where
  add_left a b c := by simp
  smul_left c a b := by
    ext z
    simp only [InnerProductSpace.rankOne_apply, _root_.smul_apply]
    rw [smul_comm]
  add_right a b c := by simp
  smul_right c a b := by
    ext z
    simp only [InnerProductSpace.rankOne_apply, _root_.smul_apply, inner_smul_left_eq_smul, smul_assoc]
    
  bound := ⟨1, one_pos, fun a b => by rw [InnerProductSpace.norm_rankOne, one_mul]⟩

theorem deriv_ketbra {a b : ℝ → E} {a' b' : E} {t : ℝ} (ha : HasDerivAt a a' t) (hb : HasDerivAt b b' t) :
    HasDerivAt (fun t => InnerProductSpace.rankOne ℂ (a t) (b t)) (InnerProductSpace.rankOne ℂ a' (b t) + InnerProductSpace.rankOne ℂ (a t) b') t := by
  have h := (bilin.hasFDerivAt (a t, b t)).comp_hasDerivAt (f := fun t => (a t, b t)) t (HasDerivAt.prodMk ha hb)
  refine h.congr_deriv ?_
  rw [bilin.deriv_apply, add_comm]

mutual
theorem SX.const (hV : V.Ok D) : ∀ e : SX, SX.free D e = false → ∀ t u, SX.val V e t = SX.val V e u
  | .num i k, h, t, u => by simp only [SX.val]; exact iter_const (hV.cs i h) k t u
  | .zero, _, _, _ => rfl
  | .add a b, h, t, u => by
    simp only [SX.free, Bool.or_eq_false_iff] at h
    simp only [SX.val, SX.const hV a h.1 t u, SX.const hV b h.2 t u]
  | .mul a b, h, t, u => by
    simp only [SX.free, Bool.or_eq_false_iff] at h
    simp only [SX.val, SX.const hV a h.1 t u, SX.const hV b h.2 t u]
  | .braket a b, h, t, u => by
    simp only [SX.free, Bool.or_eq_false_iff] at h
    simp only [SX.val, KX.const hV a h.1 t u, KX.const hV b h.2 t u]
theorem KX.const (hV : V.Ok D) : ∀ e : KX, KX.free D e = false → ∀ t u, KX.val V e t = KX.val V e u
  | .sym i k, h, t, u => by simp only [KX.val]; exact iter_const (hV.ck i h) k t u
  | .zero, _, _, _ => rfl
  | .smul a b, h, t, u => by
    simp only [KX.free, Bool.or_eq_false_iff] at h
    simp only [KX.val, SX.const hV a h.1 t u, KX.const hV b h.2 t u]
  | .add a b, h, t, u => by
    simp only [KX.free, Bool.or_eq_false_iff] at h
    simp only [KX.val, KX.const hV a h.1 t u, KX.const hV b h.2 t u]
  | .app a b, h, t, u => by
    simp only [KX.free, Bool.or_eq_false_iff] at h
    simp only [KX.val, OX.const hV a h.1 t u, KX.const hV b h.2 t u]
theorem OX.const (hV : V.Ok D) : ∀ e : OX, OX.free D e = false → ∀ t u, OX.val V e t = OX.val V e u
  | .sym i k, h, t, u => by simp only [OX.val]; exact iter_const (hV.co i h) k t u
  | .zero, _, _, _ => rfl
  | .one, _, _, _ => rfl
  | .smul a b, h, t, u => by
    simp only [OX.free, Bool.or_eq_false_iff] at h
    simp only [OX.val, SX.const hV a h.1 t u, OX.const hV b h.2 t u]
  | .add a b, h, t, u => by
    simp only [OX.free, Bool.or_eq_false_iff] at h
    simp only [OX.val, OX.const hV a h.1 t u, OX.const hV b h.2 t u]
  | .mul a b, h, t, u => by
    simp only [OX.free, Bool.or_eq_false_iff] at h
    simp only [OX.val, OX.const hV a h.1 t u, OX.const hV b h.2 t u]
  | .ketbra a b, h, t, u => by
    simp only [OX.free, Bool.or_eq_false_iff] at h
    simp only [OX.val, KX.const hV a h.1 t u, KX.const hV b h.2 t u]
  | .adj a, h, t, u => by
    simp only [OX.free] at h
    simp only [OX.val, OX.const hV a h t u]
  | .sapp a b, h, t, u => by
    simp only [OX.free, Bool.or_eq_false_iff] at h
    simp only [OX.val, PX.const hV a h.1 t u, OX.const hV b h.2 t u]
theorem PX.const (hV : V.Ok D) : ∀ e : PX, PX.free D e = false → ∀ t u, PX.val V e t = PX.val V e u
  | .sym i k, h, t, u => by simp only [PX.val]; exact iter_const (hV.cp i h) k t u
  | .zero, _, _, _ => rfl
  | .one, _, _, _ => rfl
  | .smul a b, h, t, u => by
    simp only [PX.free, Bool.or_eq_false_iff] at h
    simp only [PX.val, SX.const hV a h.1 t u, PX.const hV b h.2 t u]
  | .add a b, h, t, u => by
    simp only [PX.free, Bool.or_eq_false_iff] at h
    simp only [PX.val, PX.const hV a h.1 t u, PX.const hV b h.2 t u]
  | .mul a b, h, t, u => by
    simp only [PX.free, Bool.or_eq_false_iff] at h
    simp only [PX.val, PX.const hV a h.1 t u, PX.const hV b h.2 t u]
  | .pre a, h, t, u => by
    simp only [PX.free] at h
    simp only [PX.val, OX.const hV a h t u]
  | .post a, h, t, u => by
    simp only [PX.free] at h
    simp only [PX.val, OX.const hV a h t u]
end

/-- the product rule for the application of linear maps -/
theorem deriv_app {F : Type} [NormedAddCommGroup F] [NormedSpace ℂ F] {f : ℝ → (F →L[ℂ] F)} {x : ℝ → F} {f' : F →L[ℂ] F} {x' : F} {t : ℝ}
    (hf : HasDerivAt f f' t) (hx : HasDerivAt x x' t) : HasDerivAt (fun t => (f t) (x t)) (f' (x t) + (f t) x') t := by
  have hR : HasDerivAt (fun t => (f t).restrictScalars ℝ) (f'.restrictScalars ℝ) t :=
    (ContinuousLinearMap.restrictScalarsL ℂ F F ℝ ℝ).hasFDerivAt.comp_hasDerivAt t hf
  exact hR.clm_apply hx

theorem bilin_sapp : IsBoundedBilinearMap ℝ (fun q : Sop E × (E →L[ℂ] E) => q.1.app q.2) where
  add_left a b c := rfl
  smul_left c a b := rfl
  add_right a b c := map_add (show (E →L[ℂ] E) →L[ℂ] (E →L[ℂ] E) from a) b c
  smul_right c a b := by
    have := map_smul (show (E →L[ℂ] E) →L[ℂ] (E →L[ℂ] E) from a) (c : ℂ) b
    simp only [Complex.coe_smul] at this
    exact this
  bound := ⟨1, one_pos, fun a b => by
    rw [one_mul]; exact (show (E →L[ℂ] E) →L[ℂ] (E →L[ℂ] E) from a).le_opNorm b⟩

theorem deriv_sapp {f : ℝ → Sop E} {x : ℝ → (E →L[ℂ] E)} {f' : Sop E} {x' : E →L[ℂ] E} {t : ℝ}
    (hf : HasDerivAt f f' t) (hx : HasDerivAt x x' t) : HasDerivAt (fun t => (f t).app (x t)) (f'.app (x t) + (f t).app x') t := by
  have h := (bilin_sapp.hasFDerivAt (f t, x t)).comp_hasDerivAt (f := fun t => (f t, x t)) t (HasDerivAt.prodMk hf hx)
  refine h.congr_deriv ?_
  rw [bilin_sapp.deriv_apply, add_comm]

theorem deriv_of_const {F : Type} [NormedAddCommGroup F] [NormedSpace ℝ F] {f : ℝ → F} (h : ∀ t u, f t = f u) (t : ℝ) : HasDerivAt f 0 t := by
  have : f = fun _ => f 0 := funext fun t => h t 0
  rw [this]; exact hasDerivAt_const _ _

theorem bind_ok {α β γ : Type} {x : Res α} {y : Res β} {f : α → β → γ} {r : γ} (h : (x >>= fun a => y >>= fun b => Except.ok (f a b)) = .ok r) :
    ∃ a b, x = .ok a ∧ y = .ok b ∧ r = f a b := by
  cases x with
  | error _ => cases h
  | ok a =>
    cases y with
    | error _ => cases h
    | ok b => injection h with h; exact ⟨a, b, rfl, rfl, h.symm⟩

set_option synthInstance.maxHeartbeats 400000 in
set_option maxHeartbeats 1000000 in
mutual
theorem SX.diff_val (hV : V.Ok D) : ∀ (e r : SX), SX.diff D e = .ok r → ∀ t, HasDerivAt (SX.val V e) (SX.val V r t) t
  | .num i k, r, h, t => by
    simp only [SX.diff] at h
    injection h with h
    subst h
    have e : SX.val V (.num i k) = iteratedDeriv k (V.s i) := by funext t; simp only [SX.val]
    rw [e]
    split
    · simp only [SX.val]; exact iter_deriv (hV.s i) k t
    · next hd => simp only [SX.val]; exact deriv_of_const (fun t u => iter_const (hV.cs i (by simpa using hd)) k t u) t
  | .zero, r, h, t => by
    simp only [SX.diff] at h
    injection h with h
    subst h
    have e : SX.val V .zero = fun _ => 0 := by funext t; simp only [SX.val]
    rw [e]; simp only [SX.val]; exact hasDerivAt_const _ _
  | .add a b, r, h, t => by
    simp only [SX.diff] at h
    split at h
    · obtain ⟨a', b', h1, h2, rfl⟩ := bind_ok h
      have e : SX.val V (.add a b) = fun t => SX.val V a t + SX.val V b t := by funext t; simp only [SX.val]
      rw [e]; simp only [SX.val]
      exact (SX.diff_val hV a a' h1 t).add (SX.diff_val hV b b' h2 t)
    · next hf =>
      injection h with h; subst h
      have e : SX.val V .zero t = 0 := by simp only [SX.val]
      rw [e]
      exact deriv_of_const (SX.const D V hV _ (by simpa only [SX.free, Bool.not_eq_true] using hf)) t
  | .mul a b, r, h, t => by
    simp only [SX.diff] at h
    split at h
    · obtain ⟨a', b', h1, h2, rfl⟩ := bind_ok h
      have e : SX.val V (.mul a b) = fun t => SX.val V a t * SX.val V b t := by funext t; simp only [SX.val]
      rw [e]; simp only [SX.val]
      exact (SX.diff_val hV a a' h1 t).mul (SX.diff_val hV b b' h2 t)
    · next hf =>
      injection h with h; subst h
      have e : SX.val V .zero t = 0 := by simp only [SX.val]
      rw [e]
      exact deriv_of_const (SX.const D V hV _ (by simpa only [SX.free, Bool.not_eq_true] using hf)) t
  | .braket a b, r, h, t => by
    simp only [SX.diff] at h
    split at h
    · obtain ⟨a', b', h1, h2, rfl⟩ := bind_ok h
      have e : SX.val V (.braket a b) = fun t => inner ℂ (KX.val V a t) (KX.val V b t) := by funext t; simp only [SX.val]
      rw [e]; simp only [SX.val]
      rw [add_comm]
      exact HasDerivAt.inner ℂ (KX.diff_val hV a a' h1 t) (KX.diff_val hV b b' h2 t)
    · next hf =>
      injection h with h; subst h
      have e : SX.val V .zero t = 0 := by simp only [SX.val]
      rw [e]
      exact deriv_of_const (SX.const D V hV _ (by simpa only [SX.free, Bool.not_eq_true] using hf)) t
theorem KX.diff_val (hV : V.Ok D) : ∀ (e r : KX), KX.diff D e = .ok r → ∀ t, HasDerivAt (KX.val V e) (KX.val V r t) t
  | .sym i k, r, h, t => by
    simp only [KX.diff] at h
    injection h with h
    subst h
    have e : KX.val V (.sym i k) = iteratedDeriv k (V.k i) := by funext t; simp only [KX.val]
    rw [e]
    split
    · simp only [KX.val]; exact iter_deriv (hV.k i) k t
    · next hd => simp only [KX.val]; exact deriv_of_const (fun t u => iter_const (hV.ck i (by simpa using hd)) k t u) t
  | .zero, r, h, t => by
    simp only [KX.diff] at h
    injection h with h
    subst h
    have e : KX.val V .zero = fun _ => 0 := by funext t; simp only [KX.val]
    rw [e]; simp only [KX.val]; exact hasDerivAt_const _ _
  | .smul a b, r, h, t => by
    simp only [KX.diff] at h
    split at h
    · obtain ⟨a', b', h1, h2, rfl⟩ := bind_ok h
      have e : KX.val V (.smul a b) = fun t => SX.val V a t • KX.val V b t := by funext t; simp only [KX.val]
      rw [e]; simp only [KX.val]
      rw [add_comm]
      exact (SX.diff_val hV a a' h1 t).smul (KX.diff_val hV b b' h2 t)
    · next hf =>
      injection h with h; subst h
      have e : KX.val V .zero t = 0 := by simp only [KX.val]
      rw [e]
      exact deriv_of_const (KX.const D V hV _ (by simpa only [KX.free, Bool.not_eq_true] using hf)) t
  | .add a b, r, h, t => by
    simp only [KX.diff] at h
    split at h
    · obtain ⟨a', b', h1, h2, rfl⟩ := bind_ok h
      have e : KX.val V (.add a b) = fun t => KX.val V a t + KX.val V b t := by funext t; simp only [KX.val]
      rw [e]; simp only [KX.val]
      exact (KX.diff_val hV a a' h1 t).add (KX.diff_val hV b b' h2 t)
    · next hf =>
      injection h with h; subst h
      have e : KX.val V .zero t = 0 := by simp only [KX.val]
      rw [e]
      exact deriv_of_const (KX.const D V hV _ (by simpa only [KX.free, Bool.not_eq_true] using hf)) t
  | .app a b, r, h, t => by
    simp only [KX.diff] at h
    split at h
    · obtain ⟨a', b', h1, h2, rfl⟩ := bind_ok h
      have e : KX.val V (.app a b) = fun t => (OX.val V a t) (KX.val V b t) := by funext t; simp only [KX.val]
      rw [e]; simp only [KX.val]
      exact deriv_app (OX.diff_val hV a a' h1 t) (KX.diff_val hV b b' h2 t)
    · next hf =>
      injection h with h; subst h
      have e : KX.val V .zero t = 0 := by simp only [KX.val]
      rw [e]
      exact deriv_of_const (KX.const D V hV _ (by simpa only [KX.free, Bool.not_eq_true] using hf)) t
theorem OX.diff_val (hV : V.Ok D) : ∀ (e r : OX), OX.diff D e = .ok r → ∀ t, HasDerivAt (OX.val V e) (OX.val V r t) t
  | .sym i k, r, h, t => by
    simp only [OX.diff] at h
    injection h with h
    subst h
    have e : OX.val V (.sym i k) = iteratedDeriv k (V.o i) := by funext t; simp only [OX.val]
    rw [e]
    split
    · simp only [OX.val]; exact iter_deriv (hV.o i) k t
    · next hd => simp only [OX.val]; exact deriv_of_const (fun t u => iter_const (hV.co i (by simpa using hd)) k t u) t
  | .zero, r, h, t => by
    simp only [OX.diff] at h
    injection h with h
    subst h
    have e : OX.val V .zero = fun _ => 0 := by funext t; simp only [OX.val]
    rw [e]; simp only [OX.val]; exact hasDerivAt_const _ _
  | .one, r, h, t => by
    simp only [OX.diff] at h
    injection h with h
    subst h
    have e : OX.val V .one = fun _ => 1 := by funext t; simp only [OX.val]
    rw [e]; simp only [OX.val]; exact hasDerivAt_const _ _
  | .smul a b, r, h, t => by
    simp only [OX.diff] at h
    split at h
    · obtain ⟨a', b', h1, h2, rfl⟩ := bind_ok h
      have e : OX.val V (.smul a b) = fun t => SX.val V a t • OX.val V b t := by funext t; simp only [OX.val]
      rw [e]; simp only [OX.val]
      rw [add_comm]
      exact (SX.diff_val hV a a' h1 t).smul (OX.diff_val hV b b' h2 t)
    · next hf =>
      injection h with h; subst h
      have e : OX.val V .zero t = 0 := by simp only [OX.val]
      rw [e]
      exact deriv_of_const (OX.const D V hV _ (by simpa only [OX.free, Bool.not_eq_true] using hf)) t
  | .add a b, r, h, t => by
    simp only [OX.diff] at h
    split at h
    · obtain ⟨a', b', h1, h2, rfl⟩ := bind_ok h
      have e : OX.val V (.add a b) = fun t => OX.val V a t + OX.val V b t := by funext t; simp only [OX.val]
      rw [e]; simp only [OX.val]
      exact (OX.diff_val hV a a' h1 t).add (OX.diff_val hV b b' h2 t)
    · next hf =>
      injection h with h; subst h
      have e : OX.val V .zero t = 0 := by simp only [OX.val]
      rw [e]
      exact deriv_of_const (OX.const D V hV _ (by simpa only [OX.free, Bool.not_eq_true] using hf)) t
  | .mul a b, r, h, t => by
    simp only [OX.diff] at h
    split at h
    · obtain ⟨a', b', h1, h2, rfl⟩ := bind_ok h
      have e : OX.val V (.mul a b) = fun t => OX.val V a t * OX.val V b t := by funext t; simp only [OX.val]
      rw [e]; simp only [OX.val]
      exact (OX.diff_val hV a a' h1 t).mul (OX.diff_val hV b b' h2 t)
    · next hf =>
      injection h with h; subst h
      have e : OX.val V .zero t = 0 := by simp only [OX.val]
      rw [e]
      exact deriv_of_const (OX.const D V hV _ (by simpa only [OX.free, Bool.not_eq_true] using hf)) t
  | .ketbra a b, r, h, t => by
    simp only [OX.diff] at h
    split at h
    · obtain ⟨a', b', h1, h2, rfl⟩ := bind_ok h
      have e : OX.val V (.ketbra a b) = fun t => InnerProductSpace.rankOne ℂ (KX.val V a t) (KX.val V b t) := by funext t; simp only [OX.val]
      rw [e]; simp only [OX.val]
      exact deriv_ketbra (KX.diff_val hV a a' h1 t) (KX.diff_val hV b b' h2 t)
    · next hf =>
      injection h with h; subst h
      have e : OX.val V .zero t = 0 := by simp only [OX.val]
      rw [e]
      exact deriv_of_const (OX.const D V hV _ (by simpa only [OX.free, Bool.not_eq_true] using hf)) t
  | .adj a, r, h, t => by
    simp only [OX.diff] at h
    split at h
    · cases h1 : OX.diff D a with
      | error _ => rw [h1] at h; cases h
      | ok a' =>
        rw [h1] at h
        injection h with h
        subst h
        have e : OX.val V (.adj a) = fun t => star (OX.val V a t) := by funext t; simp only [OX.val]
        rw [e]; simp only [OX.val]
        exact (OX.diff_val hV a a' h1 t).star
    · next hf =>
      injection h with h; subst h
      have e : OX.val V .zero t = 0 := by simp only [OX.val]
      rw [e]
      exact deriv_of_const (OX.const D V hV _ (by simpa only [OX.free, Bool.not_eq_true] using hf)) t
  | .sapp a b, r, h, t => by
    simp only [OX.diff] at h
    split at h
    · obtain ⟨a', b', h1, h2, rfl⟩ := bind_ok h
      have e : OX.val V (.sapp a b) = fun t => (PX.val V a t).app (OX.val V b t) := by funext t; simp only [OX.val]
      rw [e]; simp only [OX.val]
      exact deriv_sapp (PX.diff_val hV a a' h1 t) (OX.diff_val hV b b' h2 t)
    · next hf =>
      injection h with h; subst h
      have e : OX.val V .zero t = 0 := by simp only [OX.val]
      rw [e]
      exact deriv_of_const (OX.const D V hV _ (by simpa only [OX.free, Bool.not_eq_true] using hf)) t
theorem PX.diff_val (hV : V.Ok D) : ∀ (e r : PX), PX.diff D e = .ok r → ∀ t, HasDerivAt (PX.val V e) (PX.val V r t) t
  | .sym i k, r, h, t => by
    simp only [PX.diff] at h
    injection h with h
    subst h
    have e : PX.val V (.sym i k) = iteratedDeriv k (V.p i) := by funext t; simp only [PX.val]
    rw [e]
    split
    · simp only [PX.val]; exact iter_deriv (hV.p i) k t
    · next hd => simp only [PX.val]; exact deriv_of_const (fun t u => iter_const (hV.cp i (by simpa using hd)) k t u) t
  | .zero, r, h, t => by
    simp only [PX.diff] at h
    injection h with h
    subst h
    have e : PX.val V .zero = fun _ => 0 := by funext t; simp only [PX.val]
    rw [e]; simp only [PX.val]; exact hasDerivAt_const _ _
  | .one, r, h, t => by
    simp only [PX.diff] at h
    injection h with h
    subst h
    have e : PX.val V .one = fun _ => 1 := by funext t; simp only [PX.val]
    rw [e]; simp only [PX.val]; exact hasDerivAt_const _ _
  | .smul a b, r, h, t => by
    simp only [PX.diff] at h
    split at h
    · obtain ⟨a', b', h1, h2, rfl⟩ := bind_ok h
      have e : PX.val V (.smul a b) = fun t => SX.val V a t • PX.val V b t := by funext t; simp only [PX.val]
      rw [e]; simp only [PX.val]
      rw [add_comm]
      exact (SX.diff_val hV a a' h1 t).smul (PX.diff_val hV b b' h2 t)
    · next hf =>
      injection h with h; subst h
      have e : PX.val V .zero t = 0 := by simp only [PX.val]
      rw [e]
      exact deriv_of_const (PX.const D V hV _ (by simpa only [PX.free, Bool.not_eq_true] using hf)) t
  | .add a b, r, h, t => by
    simp only [PX.diff] at h
    split at h
    · obtain ⟨a', b', h1, h2, rfl⟩ := bind_ok h
      have e : PX.val V (.add a b) = fun t => PX.val V a t + PX.val V b t := by funext t; simp only [PX.val]
      rw [e]; simp only [PX.val]
      exact (PX.diff_val hV a a' h1 t).add (PX.diff_val hV b b' h2 t)
    · next hf =>
      injection h with h; subst h
      have e : PX.val V .zero t = 0 := by simp only [PX.val]
      rw [e]
      exact deriv_of_const (PX.const D V hV _ (by simpa only [PX.free, Bool.not_eq_true] using hf)) t
  | .mul a b, r, h, t => by
    simp only [PX.diff] at h
    split at h
    · obtain ⟨a', b', h1, h2, rfl⟩ := bind_ok h
      have e : PX.val V (.mul a b) = fun t => PX.val V a t * PX.val V b t := by funext t; simp only [PX.val]
      rw [e]; simp only [PX.val]
      exact (PX.diff_val hV a a' h1 t).mul (PX.diff_val hV b b' h2 t)
    · next hf =>
      injection h with h; subst h
      have e : PX.val V .zero t = 0 := by simp only [PX.val]
      rw [e]
      exact deriv_of_const (PX.const D V hV _ (by simpa only [PX.free, Bool.not_eq_true] using hf)) t
  | .pre a, r, h, t => by
    simp only [PX.diff] at h
    split at h
    · cases h
    · next hf =>
      injection h with h; subst h
      have e : PX.val V .zero t = 0 := by simp only [PX.val]
      rw [e]
      exact deriv_of_const (PX.const D V hV _ (by simpa only [PX.free, Bool.not_eq_true] using hf)) t
  | .post a, r, h, t => by
    simp only [PX.diff] at h
    split at h
    · cases h
    · next hf =>
      injection h with h; subst h
      have e : PX.val V .zero t = 0 := by simp only [PX.val]
      rw [e]
      exact deriv_of_const (PX.const D V hV _ (by simpa only [PX.free, Bool.not_eq_true] using hf)) t
end

theorem bind_err {α β γ : Type} {x : Res α} {y : Res β} {f : α → β → γ} {P Q : Prop}
    (hx : (P → x = .error .typeError) ∧ (¬ P → ∃ r, x = .ok r)) (hy : (Q → y = .error .typeError) ∧ (¬ Q → ∃ r, y = .ok r)) :
    (P ∨ Q → (x >>= fun a => y >>= fun b => Except.ok (f a b)) = .error .typeError) ∧
      (¬ (P ∨ Q) → ∃ r, (x >>= fun a => y >>= fun b => Except.ok (f a b)) = .ok r) := by
  by_cases hP : P
  · rw [hx.1 hP]; exact ⟨fun _ => rfl, fun h => absurd (.inl hP) h⟩
  · obtain ⟨a, ha⟩ := hx.2 hP
    rw [ha]
    by_cases hQ : Q
    · rw [hy.1 hQ]; exact ⟨fun _ => rfl, fun h => absurd (.inr hQ) h⟩
    · obtain ⟨b, hb⟩ := hy.2 hQ
      rw [hb]; exact ⟨fun h => (h.elim hP hQ).elim, fun _ => ⟨_, rfl⟩⟩

mutual
theorem SX.bad_free : ∀ e : SX, SX.bad D e → SX.free D e = true
  | .num _ _, h => by simp only [SX.bad] at h
  | .zero, h => by simp only [SX.bad] at h
  | .add a b, h => by
    simp only [SX.bad] at h
    simp only [SX.free, Bool.or_eq_true]
    exact h.imp (SX.bad_free a) (SX.bad_free b)
  | .mul a b, h => by
    simp only [SX.bad] at h
    simp only [SX.free, Bool.or_eq_true]
    exact h.imp (SX.bad_free a) (SX.bad_free b)
  | .braket a b, h => by
    simp only [SX.bad] at h
    simp only [SX.free, Bool.or_eq_true]
    exact h.imp (KX.bad_free a) (KX.bad_free b)
theorem KX.bad_free : ∀ e : KX, KX.bad D e → KX.free D e = true
  | .sym _ _, h => by simp only [KX.bad] at h
  | .zero, h => by simp only [KX.bad] at h
  | .smul a b, h => by
    simp only [KX.bad] at h
    simp only [KX.free, Bool.or_eq_true]
    exact h.imp (SX.bad_free a) (KX.bad_free b)
  | .add a b, h => by
    simp only [KX.bad] at h
    simp only [KX.free, Bool.or_eq_true]
    exact h.imp (KX.bad_free a) (KX.bad_free b)
  | .app a b, h => by
    simp only [KX.bad] at h
    simp only [KX.free, Bool.or_eq_true]
    exact h.imp (OX.bad_free a) (KX.bad_free b)
theorem OX.bad_free : ∀ e : OX, OX.bad D e → OX.free D e = true
  | .sym _ _, h => by simp only [OX.bad] at h
  | .one, h => by simp only [OX.bad] at h
  | .zero, h => by simp only [OX.bad] at h
  | .smul a b, h => by
    simp only [OX.bad] at h
    simp only [OX.free, Bool.or_eq_true]
    exact h.imp (SX.bad_free a) (OX.bad_free b)
  | .add a b, h => by
    simp only [OX.bad] at h
    simp only [OX.free, Bool.or_eq_true]
    exact h.imp (OX.bad_free a) (OX.bad_free b)
  | .mul a b, h => by
    simp only [OX.bad] at h
    simp only [OX.free, Bool.or_eq_true]
    exact h.imp (OX.bad_free a) (OX.bad_free b)
  | .ketbra a b, h => by
    simp only [OX.bad] at h
    simp only [OX.free, Bool.or_eq_true]
    exact h.imp (KX.bad_free a) (KX.bad_free b)
  | .adj a, h => by simp only [OX.bad] at h; simp only [OX.free]; exact OX.bad_free a h
  | .sapp a b, h => by
    simp only [OX.bad] at h
    simp only [OX.free, Bool.or_eq_true]
    exact h.imp (PX.bad_free a) (OX.bad_free b)
theorem PX.bad_free : ∀ e : PX, PX.bad D e → PX.free D e = true
  | .sym _ _, h => by simp only [PX.bad] at h
  | .one, h => by simp only [PX.bad] at h
  | .zero, h => by simp only [PX.bad] at h
  | .smul a b, h => by
    simp only [PX.bad] at h
    simp only [PX.free, Bool.or_eq_true]
    exact h.imp (SX.bad_free a) (PX.bad_free b)
  | .add a b, h => by
    simp only [PX.bad] at h
    simp only [PX.free, Bool.or_eq_true]
    exact h.imp (PX.bad_free a) (PX.bad_free b)
  | .mul a b, h => by
    simp only [PX.bad] at h
    simp only [PX.free, Bool.or_eq_true]
    exact h.imp (PX.bad_free a) (PX.bad_free b)
  | .pre a, h => by simp only [PX.bad] at h; simp only [PX.free]; exact h
  | .post a, h => by simp only [PX.bad] at h; simp only [PX.free]; exact h
end

mutual
theorem SX.diff_err : ∀ e : SX, (SX.bad D e → SX.diff D e = .error .typeError) ∧ (¬ SX.bad D e → ∃ r, SX.diff D e = .ok r)
  | .num _ _ => by simp only [SX.bad, SX.diff]; exact ⟨False.elim, fun _ => ⟨_, rfl⟩⟩
  | .zero => by simp only [SX.bad, SX.diff]; exact ⟨False.elim, fun _ => ⟨_, rfl⟩⟩
  | .add a b => by
    simp only [SX.bad, SX.diff]
    split
    · exact bind_err (SX.diff_err a) (SX.diff_err b)
    · next hf => exact ⟨fun h => absurd (by simp only [Bool.or_eq_true]; exact h.imp (SX.bad_free D a) (SX.bad_free D b)) hf, fun _ => ⟨_, rfl⟩⟩
  | .mul a b => by
    simp only [SX.bad, SX.diff]
    split
    · exact bind_err (SX.diff_err a) (SX.diff_err b)
    · next hf => exact ⟨fun h => absurd (by simp only [Bool.or_eq_true]; exact h.imp (SX.bad_free D a) (SX.bad_free D b)) hf, fun _ => ⟨_, rfl⟩⟩
  | .braket a b => by
    simp only [SX.bad, SX.diff]
    split
    · exact bind_err (KX.diff_err a) (KX.diff_err b)
    · next hf => exact ⟨fun h => absurd (by simp only [Bool.or_eq_true]; exact h.imp (KX.bad_free D a) (KX.bad_free D b)) hf, fun _ => ⟨_, rfl⟩⟩
theorem KX.diff_err : ∀ e : KX, (KX.bad D e → KX.diff D e = .error .typeError) ∧ (¬ KX.bad D e → ∃ r, KX.diff D e = .ok r)
  | .sym _ _ => by simp only [KX.bad, KX.diff]; exact ⟨False.elim, fun _ => ⟨_, rfl⟩⟩
  | .zero => by simp only [KX.bad, KX.diff]; exact ⟨False.elim, fun _ => ⟨_, rfl⟩⟩
  | .smul a b => by
    simp only [KX.bad, KX.diff]
    split
    · exact bind_err (SX.diff_err a) (KX.diff_err b)
    · next hf => exact ⟨fun h => absurd (by simp only [Bool.or_eq_true]; exact h.imp (SX.bad_free D a) (KX.bad_free D b)) hf, fun _ => ⟨_, rfl⟩⟩
  | .add a b => by
    simp only [KX.bad, KX.diff]
    split
    · exact bind_err (KX.diff_err a) (KX.diff_err b)
    · next hf => exact ⟨fun h => absurd (by simp only [Bool.or_eq_true]; exact h.imp (KX.bad_free D a) (KX.bad_free D b)) hf, fun _ => ⟨_, rfl⟩⟩
  | .app a b => by
    simp only [KX.bad, KX.diff]
    split
    · exact bind_err (OX.diff_err a) (KX.diff_err b)
    · next hf => exact ⟨fun h => absurd (by simp only [Bool.or_eq_true]; exact h.imp (OX.bad_free D a) (KX.bad_free D b)) hf, fun _ => ⟨_, rfl⟩⟩
theorem OX.diff_err : ∀ e : OX, (OX.bad D e → OX.diff D e = .error .typeError) ∧ (¬ OX.bad D e → ∃ r, OX.diff D e = .ok r)
  | .sym _ _ => by simp only [OX.bad, OX.diff]; exact ⟨False.elim, fun _ => ⟨_, rfl⟩⟩
  | .one => by simp only [OX.bad, OX.diff]; exact ⟨False.elim, fun _ => ⟨_, rfl⟩⟩
  | .zero => by simp only [OX.bad, OX.diff]; exact ⟨False.elim, fun _ => ⟨_, rfl⟩⟩
  | .smul a b => by
    simp only [OX.bad, OX.diff]
    split
    · exact bind_err (SX.diff_err a) (OX.diff_err b)
    · next hf => exact ⟨fun h => absurd (by simp only [Bool.or_eq_true]; exact h.imp (SX.bad_free D a) (OX.bad_free D b)) hf, fun _ => ⟨_, rfl⟩⟩
  | .add a b => by
    simp only [OX.bad, OX.diff]
    split
    · exact bind_err (OX.diff_err a) (OX.diff_err b)
    · next hf => exact ⟨fun h => absurd (by simp only [Bool.or_eq_true]; exact h.imp (OX.bad_free D a) (OX.bad_free D b)) hf, fun _ => ⟨_, rfl⟩⟩
  | .mul a b => by
    simp only [OX.bad, OX.diff]
    split
    · exact bind_err (OX.diff_err a) (OX.diff_err b)
    · next hf => exact ⟨fun h => absurd (by simp only [Bool.or_eq_true]; exact h.imp (OX.bad_free D a) (OX.bad_free D b)) hf, fun _ => ⟨_, rfl⟩⟩
  | .ketbra a b => by
    simp only [OX.bad, OX.diff]
    split
    · exact bind_err (KX.diff_err a) (KX.diff_err b)
    · next hf => exact ⟨fun h => absurd (by simp only [Bool.or_eq_true]; exact h.imp (KX.bad_free D a) (KX.bad_free D b)) hf, fun _ => ⟨_, rfl⟩⟩
  | .adj a => by
    simp only [OX.bad, OX.diff]
    have ha := OX.diff_err a
    split
    · exact ⟨fun h => by rw [ha.1 h]; rfl, fun h => by obtain ⟨r, hr⟩ := ha.2 h; rw [hr]; exact ⟨_, rfl⟩⟩
    · next hf => exact ⟨fun h => absurd (OX.bad_free D a h) hf, fun _ => ⟨_, rfl⟩⟩
  | .sapp a b => by
    simp only [OX.bad, OX.diff]
    split
    · exact bind_err (PX.diff_err a) (OX.diff_err b)
    · next hf => exact ⟨fun h => absurd (by simp only [Bool.or_eq_true]; exact h.imp (PX.bad_free D a) (OX.bad_free D b)) hf, fun _ => ⟨_, rfl⟩⟩
theorem PX.diff_err : ∀ e : PX, (PX.bad D e → PX.diff D e = .error .typeError) ∧ (¬ PX.bad D e → ∃ r, PX.diff D e = .ok r)
  | .sym _ _ => by simp only [PX.bad, PX.diff]; exact ⟨False.elim, fun _ => ⟨_, rfl⟩⟩
  | .one => by simp only [PX.bad, PX.diff]; exact ⟨False.elim, fun _ => ⟨_, rfl⟩⟩
  | .zero => by simp only [PX.bad, PX.diff]; exact ⟨False.elim, fun _ => ⟨_, rfl⟩⟩
  | .smul a b => by
    simp only [PX.bad, PX.diff]
    split
    · exact bind_err (SX.diff_err a) (PX.diff_err b)
    · next hf => exact ⟨fun h => absurd (by simp only [Bool.or_eq_true]; exact h.imp (SX.bad_free D a) (PX.bad_free D b)) hf, fun _ => ⟨_, rfl⟩⟩
  | .add a b => by
    simp only [PX.bad, PX.diff]
    split
    · exact bind_err (PX.diff_err a) (PX.diff_err b)
    · next hf => exact ⟨fun h => absurd (by simp only [Bool.or_eq_true]; exact h.imp (PX.bad_free D a) (PX.bad_free D b)) hf, fun _ => ⟨_, rfl⟩⟩
  | .mul a b => by
    simp only [PX.bad, PX.diff]
    split
    · exact bind_err (PX.diff_err a) (PX.diff_err b)
    · next hf => exact ⟨fun h => absurd (by simp only [Bool.or_eq_true]; exact h.imp (PX.bad_free D a) (PX.bad_free D b)) hf, fun _ => ⟨_, rfl⟩⟩
  | .pre a => by
    simp only [PX.bad, PX.diff]
    exact ⟨fun h => by rw [if_pos h], fun h => by rw [if_neg h]; exact ⟨_, rfl⟩⟩
  | .post a => by
    simp only [PX.bad, PX.diff]
    exact ⟨fun h => by rw [if_pos h], fun h => by rw [if_neg h]; exact ⟨_, rfl⟩⟩
end

/-! ## results -/

/-- **C95 (partial)**: whenever `diff` returns an expression - of a scalar, a ket, an operator or a super-operator - the value of that expression is the
derivative of the value of the original one, at every value of the symbol, for every choice of values of the other symbols.
Missing: `SPre` and `SPost` of operators with the symbol (see `C95_refuted_spre`); indexed sums and traces. -/
theorem C95_diff_partial (hV : V.Ok D) (t : ℝ) :
    (∀ e r : SX, SX.diff D e = .ok r → HasDerivAt (SX.val V e) (SX.val V r t) t) ∧
    (∀ e r : KX, KX.diff D e = .ok r → HasDerivAt (KX.val V e) (KX.val V r t) t) ∧
    (∀ e r : OX, OX.diff D e = .ok r → HasDerivAt (OX.val V e) (OX.val V r t) t) ∧
    (∀ e r : PX, PX.diff D e = .ok r → HasDerivAt (PX.val V e) (PX.val V r t) t) :=
  ⟨fun e r h => SX.diff_val D V hV e r h t, fun e r h => KX.diff_val D V hV e r h t, fun e r h => OX.diff_val D V hV e r h t,
    fun e r h => PX.diff_val D V hV e r h t⟩

/-- **C95**: `diff` raises (a `TypeError`) exactly for expressions in which `SPre` or `SPost` is applied to an operator that has the symbol
among its free symbols; for all others it returns an expression. -/
theorem C95_error :
    (∀ e : SX, (SX.diff D e = .error .typeError ↔ SX.bad D e) ∧ ((∃ r, SX.diff D e = .ok r) ↔ ¬ SX.bad D e)) ∧
    (∀ e : KX, (KX.diff D e = .error .typeError ↔ KX.bad D e) ∧ ((∃ r, KX.diff D e = .ok r) ↔ ¬ KX.bad D e)) ∧
    (∀ e : OX, (OX.diff D e = .error .typeError ↔ OX.bad D e) ∧ ((∃ r, OX.diff D e = .ok r) ↔ ¬ OX.bad D e)) ∧
    (∀ e : PX, (PX.diff D e = .error .typeError ↔ PX.bad D e) ∧ ((∃ r, PX.diff D e = .ok r) ↔ ¬ PX.bad D e)) := by
  have key {α : Type} {x : Res α} {P : Prop} (h : (P → x = .error .typeError) ∧ (¬ P → ∃ r, x = .ok r)) :
      (x = .error .typeError ↔ P) ∧ ((∃ r, x = .ok r) ↔ ¬ P) := by
    by_cases hP : P
    · rw [h.1 hP]; exact ⟨⟨fun _ => hP, fun _ => rfl⟩, ⟨fun ⟨_, h⟩ => (by cases h), fun h => absurd hP h⟩⟩
    · obtain ⟨r, hr⟩ := h.2 hP
      rw [hr]; exact ⟨⟨fun h => (by cases h), fun h => absurd h hP⟩, ⟨fun _ => hP, fun _ => ⟨r, rfl⟩⟩⟩
  exact ⟨fun e => key (SX.diff_err D e), fun e => key (KX.diff_err D e), fun e => key (OX.diff_err D e), fun e => key (PX.diff_err D e)⟩

/-- multiplication from the left and from the right, as derivatives -/
theorem deriv_leftMul {f : ℝ → (E →L[ℂ] E)} {f' : E →L[ℂ] E} {t : ℝ} (h : HasDerivAt f f' t) :
    HasDerivAt (fun t => leftMul (f t)) (leftMul f') t := by
  have hb : IsBoundedLinearMap ℝ (fun o : E →L[ℂ] E => leftMul o) :=
    { map_add := fun a b => (ContinuousLinearMap.mul ℂ (E →L[ℂ] E)).map_add a b
      map_smul := fun c a => by
        have := (ContinuousLinearMap.mul ℂ (E →L[ℂ] E)).map_smul (c : ℂ) a
        simp only [Complex.coe_smul] at this
        exact this
      bound := ⟨1, one_pos, fun a => by
        rw [one_mul]; exact ContinuousLinearMap.opNorm_mul_apply_le ℂ (E →L[ℂ] E) a⟩ }
  exact (hb.toContinuousLinearMap.hasFDerivAt (x := f t)).comp_hasDerivAt t h

/-- **C95**: the operator-valued symbol `A` depends on `t`; `SPre(A).diff(t)` raises a `TypeError`, although the value of `SPre(A)` is differentiable
with derivative the left multiplication by the derivative of `A`. -/
theorem C95_refuted_spre (hV : V.Ok D) (i : ℕ) (hi : D.o i = true) (t : ℝ) :
    PX.diff D (.pre (.sym i 0)) = .error .typeError ∧ HasDerivAt (PX.val V (.pre (.sym i 0))) (PX.val V (.pre (.sym i 1)) t) t := by
  constructor
  · simp only [PX.diff, OX.free, hi, if_true]
  · have e : PX.val V (.pre (.sym i 0)) = fun t => leftMul (OX.val V (.sym i 0) t) := by funext t; simp only [PX.val]
    rw [e]
    simp only [PX.val]
    exact deriv_leftMul (OX.diff_val D V hV (.sym i 0) (.sym i 1) (by simp only [OX.diff, hi, if_true]) t)

/-! ## a concrete case -/

/-- everything depends on the symbol; all values are `t` times a constant -/
def depAll : Dep := ⟨fun _ => true, fun _ => true, fun _ => true, fun _ => true⟩
/-- values on the one-dimensional space `ℂ` -/
noncomputable def envLin : Env ℂ := ⟨fun _ t => (t : ℂ), fun _ t => (t : ℂ), fun _ t => (t : ℂ) • 1, fun _ t => (t : ℂ) • 1⟩

theorem envLin_ok : envLin.Ok depAll where
  s _ := Complex.ofRealCLM.contDiff
  k _ := Complex.ofRealCLM.contDiff
  o _ := Complex.ofRealCLM.contDiff.smul contDiff_const
  p _ := Complex.ofRealCLM.contDiff.smul contDiff_const
  cs _ h := by cases h
  ck _ h := by cases h
  co _ h := by cases h
  cp _ h := by cases h

/-- `<A psi|psi>`, with value `t ^ 3`: the code's derivative has value `3 t ^ 2` -/
example (t : ℝ) : ∃ r, SX.diff depAll (.braket (.app (.sym 0 0) (.sym 0 0)) (.sym 0 0)) = .ok r ∧ SX.val envLin r t = 3 * (t : ℂ) ^ 2 := by
  obtain ⟨r, hr⟩ := ((C95_error depAll).1 (.braket (.app (.sym 0 0) (.sym 0 0)) (.sym 0 0))).2.2 (by simp [SX.bad, KX.bad, OX.bad])
  refine ⟨r, hr, ?_⟩
  have h := (C95_diff_partial depAll envLin envLin_ok t).1 _ r hr
  have e : SX.val envLin (.braket (.app (.sym 0 0) (.sym 0 0)) (.sym 0 0)) = fun t : ℝ => (t : ℂ) ^ 3 := by
    funext t
    simp [SX.val, KX.val, OX.val, envLin]
    ring
  rw [e] at h
  have h2 : HasDerivAt (fun t : ℝ => (t : ℂ) ^ 3) (3 * (t : ℂ) ^ 2) t := by
    have := (Complex.ofRealCLM.hasFDerivAt (x := t)).hasDerivAt.pow 3
    have e2 : (fun t : ℝ => (t : ℂ) ^ 3) = (⇑Complex.ofRealCLM ^ 3) := by funext t; rfl
    rw [e2]
    refine this.congr_deriv ?_
    simp
  exact h.unique h2

end QNET.Mixed
