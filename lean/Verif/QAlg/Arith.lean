import Verif.QAlg.Term
import Verif.QAlg.Thm30
import Verif.Util.KernelRfl
import Mathlib.Algebra.Algebra.Basic
import Mathlib.Algebra.BigOperators.Group.List.Basic
import Mathlib.Data.Rat.Defs
import Mathlib.Algebra.Polynomial.Derivative
import Mathlib.Algebra.Algebra.Bilinear
import Mathlib.Algebra.Module.LinearMap.End

/-!
# C85: Python's arithmetic operators between operators and other objects

Model of `QuantumExpression.__add__` ... `__pow__` (`src/qnet/algebra/core/abstract_quantum_algebra.py`, lines 215-293) for operators,
including Python's protocol for binary operators (`NotImplemented`, reflected methods).
-/

namespace QNET.QAlg

open QNET.Perm (Res Err)
open QNET.Engine (Ev)

/-- The other operand: an operator, a scalar (Python number, SymPy expression, `Scalar`; `is_scalar`, scalar_algebra.py lines 1208-1218),
or an object with which nothing in QNET or SymPy can be multiplied or added (e.g. a string or `None`). -/
inductive Operand (K : Type) where
  | op (x : QX K)
  | num (c : K)
  | foreign

/-- The exponent of `**`: an `int` (or SymPy integer), a `float` with the given value, or an object that `int()` refuses with `TypeError`
(e.g. a symbol). -/
inductive Expo where
  | int (z : ℤ)
  | float (q : ℚ)
  | foreign

variable {K : Type} [Field K] [DecidableEq K] (Γ : Ctx K)

/-- `A.__mul__(b)`, lines 231-244. `none` is `NotImplemented`. -/
def mulMethod (n : ℕ) (A : QX K) : Operand K → Res (Option (QX K))
  | .num c => (mulScal Γ n c A).map some
  | .op B => (timesCreate Γ n [A, B]).map some
  | .foreign => .ok none

/-- `A.__rmul__(b)`, lines 246-253 -/
def rmulMethod (n : ℕ) (A : QX K) : Operand K → Res (Option (QX K))
  | .num c => mulMethod Γ n A (.num c)
  | _ => .ok none

/-- What remains to be done by Python when a method returned `NotImplemented` and there is no other method: `TypeError` -/
def orTypeError : Res (Option (QX K)) → Res (QX K)
  | .ok (some r) => .ok r
  | .ok none => .error .typeError
  | .error e => .error e

/-- `A * b`. Numbers and other objects do not know how to be multiplied by operators from the left (`int.__rmul__(A)` etc. are
`NotImplemented`). -/
def pyMul (n : ℕ) (A : QX K) (b : Operand K) : Res (QX K) := orTypeError (mulMethod Γ n A b)

/-- `b * A`: the method of an operator `b`, or `A.__rmul__(b)`, as `b.__mul__(A)` is `NotImplemented` for other objects -/
def pyRMul (n : ℕ) (b : Operand K) (A : QX K) : Res (QX K) :=
  match b with
  | .op B => pyMul Γ n B (.op A)
  | b => orTypeError (rmulMethod Γ n A b)

/-- `A.__add__(b)`, lines 215-225: everything that is not an operator is multiplied by `_one` first; a `TypeError` from that is ignored. -/
def addMethod (n : ℕ) (A : QX K) (b : Operand K) : Res (Option (QX K)) :=
  match b with
  | .op B => (plusCreate Γ n [A, B]).map some
  | b =>
    match pyMul Γ n .one b with
    | .ok B => (plusCreate Γ n [A, B]).map some
    | .error .typeError => .ok none
    | .error e => .error e

/-- `A + b` -/
def pyAdd (n : ℕ) (A : QX K) (b : Operand K) : Res (QX K) := orTypeError (addMethod Γ n A b)

/-- `b + A`: `__radd__` is `__add__`, lines 227-229 -/
def pyRAdd (n : ℕ) (b : Operand K) (A : QX K) : Res (QX K) :=
  match b with
  | .op B => pyAdd Γ n B (.op A)
  | b => pyAdd Γ n A b

/-- `(-1) * b` for any object: for operators `__rmul__`; a number is multiplied by -1; other objects raise `TypeError`, or give another such
object (a string becomes empty) -/
def minusOne (n : ℕ) : Operand K → Res (Operand K)
  | .op B => (pyRMul Γ n (.num (-1)) B).map .op
  | .num c => .ok (.num (-1 * c))
  | .foreign => .ok .foreign

/-- `A - b`, lines 255-256 -/
def pySub (n : ℕ) (A : QX K) (b : Operand K) : Res (QX K) := minusOne Γ n b >>= pyAdd Γ n A

/-- `b - A`: for an operator `b` its `__sub__`; otherwise `__rsub__`, lines 258-259 -/
def pyRSub (n : ℕ) (b : Operand K) (A : QX K) : Res (QX K) :=
  match b with
  | .op B => pySub Γ n B (.op A)
  | b => pyRMul Γ n (.num (-1)) A >>= fun B => pyAdd Γ n B b

/-- `-A`, lines 261-262 -/
def pyNeg (n : ℕ) (A : QX K) : Res (QX K) := pyRMul Γ n (.num (-1)) A

/-- `A / b`, lines 264-272: `1/b` is computed by SymPy. For an operator `b` this raises `TypeError` (operators have no `__rtruediv__`),
which leads to `NotImplemented` (line 272: there is no `__rmul__` in the base class). `1/0` is `zoo`, which `ScalarValue.create` refuses
with `ValueError` (scalar_algebra.py lines 221-222). -/
def pyDiv (n : ℕ) (A : QX K) : Operand K → Res (QX K)
  | .num c => if c = 0 then .error .valueError else pyMul Γ n A (.num (1 / c))
  | _ => .error .typeError

/-- `b / A`: operators have no `__rtruediv__` -/
def pyRDiv (_ : Operand K) (_ : QX K) : Res (QX K) := .error .typeError

/-- `A ** e`, lines 274-293: `_one` and `self` for 0 and 1; a product of copies for larger integers (`range(2.0)` raises `TypeError`);
`1 / self**(-other)` for negative ones -/
def pyPow (n : ℕ) (A : QX K) : Expo → Res (QX K)
  | .int z =>
    if z = 0 then .ok .one
    else if z = 1 then .ok A
    else if 1 < z then timesCreate Γ n (List.replicate z.toNat A)
    else
      (if -z = 1 then .ok A else timesCreate Γ n (List.replicate (-z).toNat A)) >>= fun B => pyRDiv (.num 1) B
  | .float q => if q = 0 then .ok .one else if q = 1 then .ok A else .error .typeError
  | .foreign => .error .typeError

/-- Python's `sum(ops)` for operators: starts with the number 0 -/
def pySum (n : ℕ) : List (QX K) → Res (Operand K)
  | [] => .ok (.num 0)
  | A :: ops => (pyRAdd Γ n (.num 0) A >>= fun B => ops.foldlM (fun acc C => pyAdd Γ n acc (.op C)) B).map .op

/-! ### specification -/

variable {Γ} {A : Type} [Ring A] [Algebra K A] {ρ : ℕ → A}

/-- `v` is what the operand stands for: a number stands for this multiple of the identity -/
def Operand.Means (ρ : ℕ → A) : Operand K → A → Prop
  | .op x, v => v = val ρ x
  | .num c, v => v = algebraMap K A c
  | .foreign, _ => False

/-- for every sufficiently large recursion limit, the call returns the same object, and it denotes `v` -/
def Returns (ρ : ℕ → A) (f : ℕ → Res (QX K)) (v : A) : Prop := ∃ r, Ev f r ∧ val ρ r = v

/-! ### proofs -/

section proofs
variable {β : Type} [LinearOrder β] [OrderBot β] [WellFoundedLT β] {μ : List ℕ → β}

theorem mulScal_returns (hΓ : SoundCtx Γ ρ) (c : K) (x : QX K) : Returns ρ (fun n => mulScal Γ n c x) (c • val ρ x) := by
  obtain ⟨N, r, h⟩ := C57_scalar_times_terminates (Γ := Γ) hΓ.sortPlus c x
  exact ⟨r, ⟨N, h⟩, (lin_sound (val_linear ρ) hΓ.sortPlus N).1 c x r (h N le_rfl)⟩

theorem plus_returns (hΓ : SoundCtx Γ ρ) (ops : List (QX K)) : Returns ρ (fun n => plusCreate Γ n ops) (ops.map (val ρ)).sum := by
  obtain ⟨N, r, h⟩ := C57_plus_terminates (Γ := Γ) hΓ.sortPlus ops
  exact ⟨r, ⟨N, h⟩, (lin_sound (val_linear ρ) hΓ.sortPlus N).2 ops r (h N le_rfl)⟩

theorem times_returns (hΓ : SoundCtx Γ ρ) (hT : Terminating Γ μ) (ops : List (QX K)) :
    Returns ρ (fun n => timesCreate Γ n ops) (ops.map (val ρ)).prod := by
  obtain ⟨N, r, h⟩ := C57_times_terminates hT ops
  exact ⟨r, ⟨N, h⟩, (times_sound hΓ N).1 ops r (h N le_rfl)⟩

theorem Returns.congr {f g : ℕ → Res (QX K)} {v : A} (h : ∀ n, f n = g n) (hg : Returns ρ g v) : Returns ρ f v := by
  obtain ⟨r, hr, hv⟩ := hg
  exact ⟨r, ev_congr h hr, hv⟩

theorem Returns.of_eq {f : ℕ → Res (QX K)} {v w : A} (h : v = w) (hg : Returns ρ f v) : Returns ρ f w := h ▸ hg

theorem Returns.bind {f : ℕ → Res (QX K)} {g : ℕ → QX K → Res (QX K)} {v w : A} (hf : Returns ρ f v)
    (hg : ∀ x, val ρ x = v → Returns ρ (fun n => g n x) w) : Returns ρ (fun n => f n >>= g n) w := by
  obtain ⟨r, hr, hv⟩ := hf
  obtain ⟨s, hs, hw⟩ := hg r hv
  exact ⟨s, ev_bind hr hs, hw⟩

omit [DecidableEq K] in
theorem orTypeError_map (x : Res (QX K)) : orTypeError (x.map some) = x := by cases x <;> rfl

/-- C85: `A * b` and `b * A` for an operator `A` and an operator or number `b`. -/
theorem C85_mul (hΓ : SoundCtx Γ ρ) (hT : Terminating Γ μ) (x : QX K) (b : Operand K) (v : A) (hb : b.Means ρ v) :
    Returns ρ (fun n => pyMul Γ n x b) (val ρ x * v) ∧ Returns ρ (fun n => pyRMul Γ n b x) (v * val ρ x) := by
  cases b with
  | op y =>
    cases hb
    exact ⟨(times_returns hΓ hT [x, y]).of_eq (by simp) |>.congr fun n => orTypeError_map _,
      (times_returns hΓ hT [y, x]).of_eq (by simp) |>.congr fun n => orTypeError_map _⟩
  | num c =>
    cases hb
    have h := mulScal_returns hΓ c x
    exact ⟨(h.of_eq (by rw [Algebra.smul_def, Algebra.commutes])).congr fun n => orTypeError_map _,
      (h.of_eq (by rw [Algebra.smul_def])).congr fun n => orTypeError_map _⟩
  | foreign => exact hb.elim

theorem add_returns (hΓ : SoundCtx Γ ρ) (x : QX K) (b : Operand K) (v : A) (hb : b.Means ρ v) :
    Returns ρ (fun n => pyAdd Γ n x b) (val ρ x + v) := by
  cases b with
  | op y =>
    cases hb
    exact ((plus_returns hΓ [x, y]).of_eq (by simp)).congr fun n => orTypeError_map _
  | num c =>
    cases hb
    have h : Returns ρ (fun n => mulScal Γ n c .one >>= fun B => plusCreate Γ n [x, B]) (val ρ x + algebraMap K A c) := by
      refine (mulScal_returns hΓ c .one).bind fun y hy => (plus_returns hΓ [x, y]).of_eq ?_
      simp only [List.map_cons, List.map_nil, List.sum_cons, List.sum_nil, add_zero, hy, val, Algebra.smul_def, mul_one]
    obtain ⟨r, ⟨N, hN⟩, hv⟩ := h
    refine ⟨r, ⟨N, fun n hn => ?_⟩, hv⟩
    obtain ⟨y, h1, h2⟩ := QNET.Indexed.Except.bind_ok (hN n hn)
    simp only [pyAdd, addMethod, pyMul, mulMethod, orTypeError_map, h1, h2]
  | foreign => exact hb.elim

/-- C85: `A + b` and `b + A`. -/
theorem C85_add (hΓ : SoundCtx Γ ρ) (x : QX K) (b : Operand K) (v : A) (hb : b.Means ρ v) :
    Returns ρ (fun n => pyAdd Γ n x b) (val ρ x + v) ∧ Returns ρ (fun n => pyRAdd Γ n b x) (v + val ρ x) := by
  refine ⟨add_returns hΓ x b v hb, ?_⟩
  cases b with
  | op y => cases hb; exact add_returns hΓ y (.op x) _ rfl
  | num c => exact (add_returns hΓ x (.num c) v hb).of_eq (add_comm _ _)
  | foreign => exact hb.elim

theorem rmul_neg_one (hΓ : SoundCtx Γ ρ) (x : QX K) : Returns ρ (fun n => pyRMul Γ n (.num (-1)) x) (- val ρ x) :=
  ((mulScal_returns hΓ (-1) x).of_eq (by simp)).congr fun n => orTypeError_map _

theorem sub_returns (hΓ : SoundCtx Γ ρ) (x : QX K) (b : Operand K) (v : A) (hb : b.Means ρ v) :
    Returns ρ (fun n => pySub Γ n x b) (val ρ x - v) := by
  cases b with
  | op y =>
    cases hb
    have h : Returns ρ (fun n => pyRMul Γ n (.num (-1)) y >>= fun B => pyAdd Γ n x (.op B)) (val ρ x - val ρ y) :=
      (rmul_neg_one hΓ y).bind fun z hz => (add_returns hΓ x (.op z) _ rfl).of_eq (by rw [hz, sub_eq_add_neg])
    refine h.congr fun n => ?_
    simp only [pySub, minusOne]
    cases pyRMul Γ n (.num (-1)) y <;> rfl
  | num c =>
    cases hb
    refine ((add_returns hΓ x (.num (-1 * c)) _ rfl).of_eq ?_).congr fun n => rfl
    rw [neg_one_mul, map_neg, sub_eq_add_neg]
  | foreign => exact hb.elim

/-- C85: `A - b` and `b - A`, and `-A`. -/
theorem C85_sub (hΓ : SoundCtx Γ ρ) (x : QX K) (b : Operand K) (v : A) (hb : b.Means ρ v) :
    Returns ρ (fun n => pySub Γ n x b) (val ρ x - v) ∧ Returns ρ (fun n => pyRSub Γ n b x) (v - val ρ x) ∧
    Returns ρ (fun n => pyNeg Γ n x) (- val ρ x) := by
  refine ⟨sub_returns hΓ x b v hb, ?_, rmul_neg_one hΓ x⟩
  cases b with
  | op y => cases hb; exact sub_returns hΓ y (.op x) _ rfl
  | num c =>
    exact (rmul_neg_one hΓ x).bind fun z hz => (add_returns hΓ z (.num c) v hb).of_eq (by rw [hz, sub_eq_add_neg, add_comm])
  | foreign => exact hb.elim

/-- C85: division by a number other than 0 is division; division by 0 raises `ValueError`. -/
theorem C85_div (hΓ : SoundCtx Γ ρ) (hT : Terminating Γ μ) (x : QX K) (c : K) :
    (c ≠ 0 → ∃ v, Returns ρ (fun n => pyDiv Γ n x (.num c)) v ∧ v * algebraMap K A c = val ρ x) ∧
    (c = 0 → ∀ n, pyDiv Γ n x (.num c) = .error .valueError) := by
  refine ⟨fun hc => ⟨val ρ x * algebraMap K A (1 / c), ?_, ?_⟩, fun hc n => by simp only [pyDiv, if_pos hc]⟩
  · exact (C85_mul hΓ hT x (.num (1 / c)) _ rfl).1.congr fun n => by simp only [pyDiv, if_neg hc]
  · rw [mul_assoc, ← map_mul, one_div, inv_mul_cancel₀ hc, map_one, mul_one]

/-- C85 (partial: exponents are natural numbers): `A ** k` is the `k`-th power. -/
theorem C85_pow_partial (hΓ : SoundCtx Γ ρ) (hT : Terminating Γ μ) (x : QX K) (k : ℕ) :
    Returns ρ (fun n => pyPow Γ n x (.int k)) (val ρ x ^ k) := by
  rcases Nat.lt_or_ge 1 k with hk | hk
  · refine ((times_returns hΓ hT (List.replicate k x)).of_eq (by simp)).congr fun n => ?_
    simp only [pyPow]
    rw [if_neg (by omega), if_neg (by omega), if_pos (by omega), Int.toNat_natCast]
  · rcases Nat.le_one_iff_eq_zero_or_eq_one.mp hk with rfl | rfl
    · exact ⟨.one, ⟨0, fun n _ => rfl⟩, by simp [val]⟩
    · exact ⟨x, ⟨0, fun n _ => rfl⟩, by simp⟩

theorem foldlM_returns (hΓ : SoundCtx Γ ρ) (ops : List (QX K)) : ∀ x : QX K,
    Returns ρ (fun n => ops.foldlM (fun acc C => pyAdd Γ n acc (.op C)) x) (val ρ x + (ops.map (val ρ)).sum) := by
  induction ops with
  | nil => intro x; exact ⟨x, ⟨0, fun n _ => rfl⟩, by simp⟩
  | cons y ops ih =>
    intro x
    have h : Returns ρ (fun n => pyAdd Γ n x (.op y) >>= fun z => ops.foldlM (fun acc C => pyAdd Γ n acc (.op C)) z)
        (val ρ x + ((y :: ops).map (val ρ)).sum) :=
      (add_returns hΓ x (.op y) _ rfl).bind fun z hz => (ih z).of_eq (by rw [hz, List.map_cons, List.sum_cons, add_assoc])
    exact h.congr fun n => List.foldlM_cons ..

/-- C85: Python's `sum` of a list of operators denotes their sum (0 for an empty list). -/
theorem C85_sum (hΓ : SoundCtx Γ ρ) (ops : List (QX K)) :
    ∃ b : Operand K, Ev (fun n => pySum Γ n ops) b ∧ b.Means ρ (ops.map (val ρ)).sum := by
  cases ops with
  | nil => exact ⟨.num 0, ⟨0, fun n _ => rfl⟩, by simp [Operand.Means]⟩
  | cons x ops =>
    have h : Returns ρ (fun n => pyRAdd Γ n (.num 0) x >>= fun B => ops.foldlM (fun acc C => pyAdd Γ n acc (.op C)) B)
        ((x :: ops).map (val ρ)).sum :=
      (C85_add hΓ x (.num 0) _ rfl).2.bind fun z hz =>
        (foldlM_returns hΓ ops z).of_eq (by rw [hz, map_zero, zero_add, List.map_cons, List.sum_cons])
    obtain ⟨r, ⟨N, hN⟩, hv⟩ := h
    refine ⟨.op r, ⟨N, fun n hn => ?_⟩, by rw [← hv]; rfl⟩
    simp only [pySum]
    have e := hN n hn
    dsimp only at e
    rw [e]
    rfl

end proofs

/-- C85: with any other object, every operator raises `TypeError` (for `b - A` and negative powers once `-A` and the positive power are
computed); division of or by operators is never possible. -/
theorem C85_type_errors (n : ℕ) (x y : QX K) (b : Operand K) :
    pyMul Γ n x .foreign = .error .typeError ∧ pyRMul Γ n .foreign x = .error .typeError ∧
    pyAdd Γ n x .foreign = .error .typeError ∧ pyRAdd Γ n .foreign x = .error .typeError ∧
    pySub Γ n x .foreign = .error .typeError ∧ (∀ z, pyNeg Γ n x = .ok z → pyRSub Γ n .foreign x = .error .typeError) ∧
    pyDiv Γ n x .foreign = .error .typeError ∧ pyDiv Γ n x (.op y) = .error .typeError ∧ pyRDiv b x = .error .typeError ∧
    pyPow Γ n x .foreign = .error .typeError := by
  refine ⟨rfl, rfl, rfl, rfl, rfl, ?_, rfl, rfl, rfl, rfl⟩
  intro z hz
  simp only [pyNeg] at hz
  simp only [pyRSub, hz]
  rfl

/-- C85 is false of the code for negative exponents: a negative power raises `TypeError` for every operator (also the identity), although
the code is written to compute the inverse. -/
theorem C85_refuted_negative_power (n : ℕ) (x : QX K) (k : ℕ) (hk : 0 < k) :
    (∀ r, pyPow Γ n x (.int (-k)) ≠ .ok r) ∧ (k = 1 → pyPow Γ n x (.int (-k)) = .error .typeError) := by
  have h : pyPow Γ n x (.int (-k)) = ((if (k : ℤ) = 1 then .ok x else timesCreate Γ n (List.replicate k x)) >>= fun B => pyRDiv (.num 1) B) := by
    simp only [pyPow]
    rw [if_neg (by omega), if_neg (by omega), if_neg (by omega), neg_neg, Int.toNat_natCast]
  refine ⟨fun r hr => ?_, fun h1 => ?_⟩
  · rw [h] at hr
    obtain ⟨y, _, h2⟩ := QNET.Indexed.Except.bind_ok hr
    cases h2
  · rw [h, h1]; rfl

/-- C85 is false of the code for exponents that are whole numbers of type `float`: 0.0 and 1.0 are accepted, 2.0, 3.0, ... raise `TypeError`. -/
theorem C85_refuted_float_power (n : ℕ) (x : QX K) :
    pyPow Γ n x (.float 0) = .ok .one ∧ pyPow Γ n x (.float 1) = .ok x ∧
    ∀ k : ℕ, 2 ≤ k → pyPow Γ n x (.float k) = .error .typeError := by
  refine ⟨rfl, rfl, fun k hk => ?_⟩
  have h0 : (k : ℚ) ≠ 0 := by exact_mod_cast (by omega : k ≠ 0)
  have h1 : (k : ℚ) ≠ 1 := by exact_mod_cast (by omega : k ≠ 1)
  simp only [pyPow, if_neg h0, if_neg h1]

/-! ### The hypotheses are satisfiable: ladder operators of one mode, as operators on polynomials -/

/-- `atom 0` is the creation operator and `atom 1` the annihilation operator of a mode, all other symbols are of other kinds -/
def Ctx.mode (K : Type) : Ctx K where
  atomRule a b := if a = 1 ∧ b = 0 then some (.plus [.one, .times [.atom 0, .atom 1]]) else none
  sortPlus := id
  sortTimes := id
  disjoint _ _ := false
  commLt _ _ := false
  ladder _ _ := false
  known _ _ := false

/-- multiplication by `X`, and differentiation -/
noncomputable def polyVal : ℕ → Module.End ℚ (Polynomial ℚ)
  | 0 => LinearMap.mulLeft ℚ Polynomial.X
  | 1 => Polynomial.derivative
  | n => n

theorem mode_sound : SoundCtx (Ctx.mode ℚ) polyVal where
  sortPlus _ := List.Perm.refl _
  sortTimes _ := rfl
  atomRule a b r h := by
    simp only [Ctx.mode] at h
    split at h
    · rename_i hab
      obtain ⟨rfl, rfl⟩ := hab
      injection h with h
      subst h
      refine LinearMap.ext fun p => ?_
      simp [val, vals, polyVal, Module.End.mul_apply]
    · cases h
  disjoint _ _ h := by cases h
  ladder _ _ h := by cases h

theorem mode_terminating : Terminating (Ctx.mode ℚ) (fun w => inversions w + w.length) where
  sortPlus _ := List.Perm.refl _
  sortTimes _ := List.Perm.refl _
  sub := boson_terminating (K := ℚ).sub
  rule a b r h := by
    simp only [Ctx.mode] at h
    split at h
    · rename_i hab
      obtain ⟨rfl, rfl⟩ := hab
      exact boson_terminating.rule 1 0 r h
    · cases h
  sort l w hw := ⟨w, hw, fun _ _ => le_rfl⟩

/-- `(a + 2)**3` and the rest of the arithmetic denote what they should, for the operators `X` and `d/dX` -/
example (x : QX ℚ) (k : ℕ) : Returns polyVal (fun n => pyPow (Ctx.mode ℚ) n x (.int k)) (val polyVal x ^ k) :=
  C85_pow_partial mode_sound mode_terminating x k
example : pyPow (Ctx.mode ℚ) 30 (.atom 1) (.int 3) = .ok (.times [.atom 1, .atom 1, .atom 1]) := by kernel_rfl
example : pyRSub (Ctx.mode ℚ) 30 (.num 2) (.atom 1) = .ok (.plus [.scal (-1) (.atom 1), .scal 2 .one]) := by kernel_rfl
example : pyDiv (Ctx.mode ℚ) 30 (.atom 1) (.num 2) = .ok (.scal (1 / 2) (.atom 1)) := by kernel_rfl
example : pySum (Ctx.mode ℚ) 30 [.atom 1, .atom 1, .atom 0] = .ok (.op (.plus [.scal 2 (.atom 1), .atom 0])) := by kernel_rfl

end QNET.QAlg
