import Mathlib.Analysis.SpecialFunctions.Pow.Complex

/-!
# C107: comparisons of scalars, powers of numbers (`src/qnet/algebra/core/scalar_algebra.py`)

Python's dispatch is modelled: `x < y` calls the method of `x`, and if that gives NotImplemented (or does not exist) the reflected method of `y`; if there is none,
TypeError is raised. Python's numbers are `Num`: complex numbers have no order. Not modelled: SymPy expressions as values (their comparisons are again SymPy
expressions), infinities and NaN.
-/

namespace QNET.ScalarCmp

/-- an operand: Python's number, `ScalarValue`, `Zero`, `One`, any other scalar -/
inductive Obj (N : Type) where
  | num (k : N)
  | val (k : N)
  | zero
  | one
  | expr (a : ℕ)
deriving DecidableEq

/-- TypeError, ZeroDivisionError -/
inductive Err
  | type
  | zeroDivision
deriving DecidableEq

/-! ### comparisons -/

/-- `<`, `<=`, `>`, `>=` -/
inductive Cmp | lt | le | gt | ge
deriving DecidableEq

/-- Python's reflected comparison -/
def Cmp.swap : Cmp → Cmp | .lt => .gt | .le => .ge | .gt => .lt | .ge => .le

/-- Python's numbers: int and float (`real`) or complex -/
inductive Num (K : Type) where
  | real (r : K)
  | complex (z : K × K)

variable {K : Type} [LinearOrder K]

/-- comparison of Python's numbers -/
def prim (c : Cmp) : Num K → Num K → Except Err Bool
  | .real a, .real b => .ok (match c with | .lt => decide (a < b) | .le => decide (a ≤ b) | .gt => decide (a > b) | .ge => decide (a ≥ b))
  | _, _ => .error .type

variable [Zero K] [One K]

/-- `k < y` for a number `k`: the number's method does not know scalars, so the reflected method of `y` is called: lines 319-341, 541-563, 701-723 -/
def numCmp (c : Cmp) (k : Num K) : Obj (Num K) → Except Err Bool
  | .num j => prim c k j
  | .val j => prim c.swap j k
  | .zero => prim c.swap (.real 0) k
  | .one => prim c.swap (.real 1) k
  | .expr _ => .error .type

/-- `x < y`: ScalarValue lines 319-341, Zero lines 541-563, One lines 701-723; other scalars have no such methods -/
def cmp (c : Cmp) (x y : Obj (Num K)) : Except Err Bool :=
  match x with
  | .num k => numCmp c k y
  | .val k => match y with | .val j => prim c k j | y => numCmp c k y
  | .zero => match y with | .val j => prim c (.real 0) j | y => numCmp c (.real 0) y
  | .one => match y with | .val j => prim c (.real 1) j | y => numCmp c (.real 1) y
  | .expr a => match y with
    | .val j => numCmp c.swap j (.expr a)
    | .zero => numCmp c.swap (.real 0) (.expr a)
    | .one => numCmp c.swap (.real 1) (.expr a)
    | _ => .error .type

/-- the real number that an operand denotes, if it denotes one (specification) -/
inductive Denotes : Obj (Num K) → K → Prop
  | num (r : K) : Denotes (.num (.real r)) r
  | val (r : K) : Denotes (.val (.real r)) r
  | zero : Denotes .zero 0
  | one : Denotes .one 1

/-- the relation of a comparison (specification) -/
def Cmp.Holds (c : Cmp) (a b : K) : Prop := match c with | .lt => a < b | .le => a ≤ b | .gt => b < a | .ge => b ≤ a

omit [Zero K] [One K] in
theorem prim_real (c : Cmp) (a b : K) : ∃ t, prim c (.real a) (.real b) = .ok t ∧ (t = true ↔ c.Holds a b) := by
  cases c <;> exact ⟨_, rfl, by simp [Cmp.Holds]⟩

omit [Zero K] [One K] in
theorem prim_swap (c : Cmp) (x y : Num K) : prim c.swap y x = prim c x y := by
  cases x <;> cases y <;> cases c <;> rfl

/-- all reduces to the comparison of numbers -/
def Obj.toNum : Obj (Num K) → Option (Num K)
  | .num k => some k
  | .val k => some k
  | .zero => some (.real 0)
  | .one => some (.real 1)
  | .expr _ => none

theorem numCmp_eq (c : Cmp) (k : Num K) (y : Obj (Num K)) : numCmp c k y = (match y.toNum with | some j => prim c k j | none => .error .type) := by
  cases y <;> first | rfl | exact prim_swap (K := K) c _ _ | (cases c <;> rfl)

theorem cmp_eq (c : Cmp) (x y : Obj (Num K)) : cmp c x y = (match x.toNum, y.toNum with | some k, some j => prim c k j | _, _ => .error .type) := by
  cases x <;> cases y <;> first | rfl | exact prim_swap (K := K) c _ _ | (cases c <;> rfl)

omit [LinearOrder K] in
theorem denotes_iff {x : Obj (Num K)} {a : K} : Denotes x a ↔ x.toNum = some (.real a) := by
  constructor
  · intro h; cases h <;> rfl
  · intro h
    cases x with
    | num k => injection h with h; subst h; exact .num a
    | val k => injection h with h; subst h; exact .val a
    | zero => injection h with h; injection h with h; subst h; exact .zero
    | one => injection h with h; injection h with h; subst h; exact .one
    | expr _ => exact nomatch h

/-- **C107** a comparison of wrapped or unwrapped real numbers gives the comparison of the numbers -/
theorem C107_compare (c : Cmp) {x y : Obj (Num K)} {a b : K} (hx : Denotes x a) (hy : Denotes y b) : ∃ t, cmp c x y = .ok t ∧ (t = true ↔ c.Holds a b) := by
  rw [cmp_eq, denotes_iff.mp hx, denotes_iff.mp hy]
  exact prim_real c a b

/-- **C107** a comparison never gives an answer for anything else (complex numbers, other scalars): TypeError is raised -/
theorem C107_compare_error (c : Cmp) (x y : Obj (Num K)) : cmp c x y = .error .type ↔ ¬ ((∃ a, Denotes x a) ∧ ∃ b, Denotes y b) := by
  simp only [denotes_iff, cmp_eq]
  rcases hx : x.toNum with _ | (a | a)
  · simp
  · rcases hy : y.toNum with _ | (b | b)
    · simp
    · obtain ⟨t, e, _⟩ := prim_real c a b
      simp [e]
    · simp [prim]
  · rcases hy : y.toNum with _ | (b | b) <;> simp [prim]

/-- **C107** the operators agree with each other: `x <= y` is `not y < x`, `x > y` is `y < x`, `x >= y` is `y <= x`, whenever they give an answer, and `<` is transitive -/
theorem C107_order (x y z : Obj (Num K)) : (∀ t, cmp .le x y = .ok t → cmp .lt y x = .ok (!t)) ∧ cmp .gt x y = cmp .lt y x ∧ cmp .ge x y = cmp .le y x ∧
    (cmp .lt x y = .ok true → cmp .lt y z = .ok true → cmp .lt x z = .ok true) := by
  have val : ∀ (c : Cmp) (x y : Obj (Num K)) (t : Bool), cmp c x y = .ok t → ∃ a b, Denotes x a ∧ Denotes y b ∧ (t = true ↔ c.Holds a b) := by
    intro c x y t h
    have : ¬ cmp c x y = .error .type := by rw [h]; exact nofun
    rw [C107_compare_error, not_not] at this
    obtain ⟨⟨a, ha⟩, b, hb⟩ := this
    obtain ⟨t', e, k⟩ := C107_compare c ha hb
    rw [h] at e
    injection e with e
    exact ⟨a, b, ha, hb, e ▸ k⟩
  refine ⟨fun t h => ?_, ?_, ?_, fun h1 h2 => ?_⟩
  · obtain ⟨a, b, ha, hb, k⟩ := val _ _ _ _ h
    obtain ⟨t', e, k'⟩ := C107_compare .lt hb ha
    rw [e]
    congr 1
    have : t' = true ↔ ¬ t = true := by rw [k', k]; exact not_le.symm
    cases t with
    | true => cases t' with
      | true => exact absurd rfl (this.mp rfl)
      | false => rfl
    | false => cases t' with
      | true => rfl
      | false => exact this.mpr Bool.false_ne_true
  · rw [cmp_eq, cmp_eq]
    cases x.toNum <;> cases y.toNum <;> first | rfl | exact (prim_swap .lt _ _)
  · rw [cmp_eq, cmp_eq]
    cases x.toNum <;> cases y.toNum <;> first | rfl | exact (prim_swap .le _ _)
  · obtain ⟨a, b, ha, hb, k⟩ := val _ _ _ _ h1
    obtain ⟨b', d, hb', hd, k'⟩ := val _ _ _ _ h2
    have e : b' = b := by
      have := (denotes_iff.mp hb').symm.trans (denotes_iff.mp hb)
      injection this with this; injection this
    subst e
    obtain ⟨t, e, k3⟩ := C107_compare .lt ha hd
    rw [e, k3.mpr (lt_trans (k.mp rfl) (k'.mp rfl))]

example : cmp .lt (.val (.real (-2 : ℤ))) .zero = .ok true ∧ cmp .ge (.zero : Obj (Num ℤ)) .one = .ok false ∧ cmp .gt (.num (.real (3 : ℤ))) .one = .ok true ∧
    cmp .lt .zero (.val (.complex ((0 : ℤ), 1))) = .error .type ∧ cmp .le (.expr 0) (.one : Obj (Num ℤ)) = .error .type := by decide +kernel
example : Denotes (.val (.real (-2 : ℤ))) (-2) ∧ Denotes (.zero : Obj (Num ℤ)) 0 := ⟨.val _, .zero⟩

/-! ### powers -/

section pow
variable {N : Type} [DecidableEq N] [Zero N] [One N]

/-- `ScalarValue.create`, lines 210-232 -/
def create (k : N) : Obj N := if k = 0 then .zero else if k = 1 then .one else .val k

/-- create of a result that may be an error -/
def createE : Option N → Except Err (Obj N)
  | some k => .ok (create k)
  | none => .error .zeroDivision

/-- `Scalar.__rpow__` for scalars that are not values, lines 165-174 -/
def rpowExpr (k : N) : Except Err (Obj N) := if k = 0 then .ok .zero else if k = 1 then .ok .one else .error .type

/-- `x ** y` where `x` is a number, a value, Zero or One: ScalarValue lines 409-415 and 461-465, Zero lines 612-618 and 645-646, One lines 784-790 and 804,
`QuantumExpression.__pow__` lines 272-292, and the dispatch. `pw` is the power of Python's numbers (none: ZeroDivisionError). Powers of other scalars: C86, C87 -/
def pow (pw : N → N → Option N) (x y : Obj N) : Except Err (Obj N) :=
  match x, y with
  | .num k, .num j => match pw k j with | some r => .ok (.num r) | none => .error .zeroDivision
  | .num k, .val j => createE (pw k j)
  | .num _, .zero => .ok .one
  | .num k, .one => .ok (create k)
  | .num k, .expr _ => rpowExpr k
  | .val k, .num j => createE (pw k j)
  | .val k, .val j => createE (pw k j)
  | .val _, .zero => .ok .one
  | .val k, .one => .ok (.val k)
  | .val k, .expr _ => rpowExpr k
  | .zero, .num j => createE (pw 0 j)
  | .zero, .val j => createE (pw 0 j)
  | .zero, .zero => .ok .one
  | .zero, .one => .ok .zero
  | .zero, .expr _ => rpowExpr 0
  | .one, .num j => createE (pw 1 j)
  | .one, .val j => createE (pw 1 j)
  | .one, .zero => .ok .one
  | .one, .one => .ok .one
  | .one, .expr _ => rpowExpr 1
  | .expr _, _ => .error .type

/-- the number that an operand denotes, `ρ` gives the values of the other scalars (specification) -/
def Obj.value (ρ : ℕ → N) : Obj N → N
  | .num k => k
  | .val k => k
  | .zero => 0
  | .one => 1
  | .expr a => ρ a

/-- the operand is a scalar that is not a value -/
def Obj.IsExpr (x : Obj N) : Prop := ∃ a, x = .expr a

/-- what Python's numbers satisfy -/
structure PwOk (pw : N → N → Option N) : Prop where
  zero : ∀ k, pw k 0 = some 1
  one : ∀ k, pw k 1 = some k
  base : ∀ k, pw 1 k = some 1

theorem create_value (ρ : ℕ → N) (k : N) : (create k).value ρ = k := by
  unfold create
  split
  · exact (‹k = 0›).symm
  · split
    · exact (‹k = 1›).symm
    · rfl

theorem createE_iff (ρ : ℕ → N) {o : Option N} {r : Obj N} (h : createE o = .ok r) : o = some (r.value ρ) := by
  cases o with
  | none => exact nomatch h
  | some k => injection h with h; rw [← h, create_value]

/-- **C107** powers of wrapped and unwrapped numbers are the powers of the numbers -/
theorem C107_pow {pw : N → N → Option N} (hp : PwOk pw) (ρ : ℕ → N) {x y r : Obj N} (hx : ¬ x.IsExpr) (hy : ¬ y.IsExpr) (h : pow pw x y = .ok r) :
    pw (x.value ρ) (y.value ρ) = some (r.value ρ) := by
  cases x with
  | expr a => exact absurd ⟨a, rfl⟩ hx
  | num k =>
    cases y with
    | expr a => exact absurd ⟨a, rfl⟩ hy
    | num j =>
      simp only [pow] at h
      change pw k j = _
      cases e : pw k j with
      | none => rw [e] at h; exact nomatch h
      | some t => rw [e] at h; injection h with h; rw [← h]; rfl
    | val j => exact createE_iff ρ h
    | zero => injection h with h; rw [← h]; exact hp.zero k
    | one => injection h with h; rw [← h, create_value]; exact hp.one k
  | val k =>
    cases y with
    | expr a => exact absurd ⟨a, rfl⟩ hy
    | num j => exact createE_iff ρ h
    | val j => exact createE_iff ρ h
    | zero => injection h with h; rw [← h]; exact hp.zero k
    | one => injection h with h; rw [← h]; exact hp.one k
  | zero =>
    cases y with
    | expr a => exact absurd ⟨a, rfl⟩ hy
    | num j => exact createE_iff ρ h
    | val j => exact createE_iff ρ h
    | zero => injection h with h; rw [← h]; exact hp.zero 0
    | one => injection h with h; rw [← h]; exact hp.one 0
  | one =>
    cases y with
    | expr a => exact absurd ⟨a, rfl⟩ hy
    | num j => exact createE_iff ρ h
    | val j => exact createE_iff ρ h
    | zero => injection h with h; rw [← h]; exact hp.zero 1
    | one => injection h with h; rw [← h]; exact hp.one 1

/-- **C107** an exception is raised if and only if the power of the numbers does not exist, and then it is ZeroDivisionError -/
theorem C107_pow_error {pw : N → N → Option N} (hp : PwOk pw) (ρ : ℕ → N) {x y : Obj N} (hx : ¬ x.IsExpr) (hy : ¬ y.IsExpr) :
    (pow pw x y = .error .zeroDivision ↔ pw (x.value ρ) (y.value ρ) = none) ∧ pow pw x y ≠ .error .type := by
  have key : ∀ o : Option N, (createE o = .error .zeroDivision ↔ o = none) ∧ createE o ≠ .error .type := by
    intro o
    cases o with
    | none => exact ⟨⟨fun _ => rfl, fun _ => rfl⟩, nofun⟩
    | some k => exact ⟨⟨nofun, nofun⟩, nofun⟩
  have ok : ∀ (r : Obj N) (a b s : N), pw a b = some s → (((.ok r : Except Err (Obj N)) = .error .zeroDivision ↔ pw a b = none) ∧ (.ok r : Except Err (Obj N)) ≠ .error .type) :=
    fun r a b s h => ⟨⟨nofun, fun k => nomatch (h.symm.trans k)⟩, nofun⟩
  cases x with
  | expr a => exact absurd ⟨a, rfl⟩ hx
  | num k =>
    cases y with
    | expr a => exact absurd ⟨a, rfl⟩ hy
    | num j =>
      simp only [pow]
      change (_ ↔ pw k j = none) ∧ _
      cases e : pw k j with
      | none => exact ⟨by simp, by simp⟩
      | some t => exact ⟨by simp, by simp⟩
    | val j => exact key _
    | zero => exact ok _ _ _ _ (hp.zero k)
    | one => exact ok _ _ _ _ (hp.one k)
  | val k =>
    cases y with
    | expr a => exact absurd ⟨a, rfl⟩ hy
    | num j => exact key _
    | val j => exact key _
    | zero => exact ok _ _ _ _ (hp.zero k)
    | one => exact ok _ _ _ _ (hp.one k)
  | zero =>
    cases y with
    | expr a => exact absurd ⟨a, rfl⟩ hy
    | num j => exact key _
    | val j => exact key _
    | zero => exact ok _ _ _ _ (hp.zero 0)
    | one => exact ok _ _ _ _ (hp.one 0)
  | one =>
    cases y with
    | expr a => exact absurd ⟨a, rfl⟩ hy
    | num j => exact key _
    | val j => exact key _
    | zero => exact ok _ _ _ _ (hp.zero 1)
    | one => exact ok _ _ _ _ (hp.one 1)

/-- **C107** with one scalar operand the result is a scalar, and `Zero` and `One` are used for 0 and 1, unless the base itself is not of this form -/
theorem C107_pow_scalar {pw : N → N → Option N} {x y r : Obj N} (h : pow pw x y = .ok r) (hs : ¬ ((∃ k, x = .num k) ∧ ∃ k, y = .num k)) :
    (r = .zero ∨ r = .one ∨ ∃ k, r = .val k ∧ k ≠ 0 ∧ k ≠ 1) ∨ r = x := by
  have hc : ∀ k : N, (create k = .zero ∨ create k = .one ∨ ∃ j, create k = .val j ∧ j ≠ 0 ∧ j ≠ 1) := by
    intro k
    unfold create
    split
    · exact .inl rfl
    · split
      · exact .inr (.inl rfl)
      · exact .inr (.inr ⟨k, rfl, ‹_›, ‹_›⟩)
  have hE : ∀ o : Option N, createE o = .ok r → (r = .zero ∨ r = .one ∨ ∃ k, r = .val k ∧ k ≠ 0 ∧ k ≠ 1) := by
    intro o h
    cases o with
    | none => exact nomatch h
    | some k => injection h with h; rw [← h]; exact hc k
  have hR : ∀ k : N, rpowExpr k = .ok r → (r = .zero ∨ r = .one ∨ ∃ k, r = .val k ∧ k ≠ 0 ∧ k ≠ 1) := by
    intro k h
    unfold rpowExpr at h
    split at h
    · injection h with h; exact .inl h.symm
    · split at h
      · injection h with h; exact .inr (.inl h.symm)
      · exact nomatch h
  cases x <;> cases y <;> first
    | exact absurd ⟨⟨_, rfl⟩, _, rfl⟩ hs
    | exact .inl (hE _ h)
    | exact .inl (hR _ h)
    | (injection h with h; exact .inr h.symm)
    | (injection h with h; exact .inl (.inr (.inl h.symm)))
    | (injection h with h; rw [← h]; exact .inl (hc _))
    | exact nomatch h

/-- **C107** a number to the power of another scalar: 1 gives 1, numbers different from 0 and 1 TypeError -/
theorem C107_pow_expr_partial {pw : N → N → Option N} (hp : PwOk pw) (ρ : ℕ → N) {x : Obj N} (hx : ¬ x.IsExpr) (h0 : x.value ρ ≠ 0) (a : ℕ) :
    (x.value ρ = 1 ∧ pow pw x (.expr a) = .ok .one ∧ pw (x.value ρ) (ρ a) = some 1) ∨ (x.value ρ ≠ 1 ∧ pow pw x (.expr a) = .error .type) := by
  have key : pow pw x (.expr a) = rpowExpr (x.value ρ) := by
    cases x with
    | expr b => exact absurd ⟨b, rfl⟩ hx
    | _ => rfl
  rw [key]
  unfold rpowExpr
  rw [if_neg h0]
  by_cases h1 : x.value ρ = 1
  · exact .inl ⟨h1, if_pos h1, by rw [h1]; exact hp.base _⟩
  · exact .inr ⟨h1, if_neg h1⟩

/-- **C107** refuted: 0 to the power of another scalar is Zero, also if the value of that scalar is 0 and the power is 1 -/
theorem C107_refuted_zero_pow [NeZero (1 : N)] {pw : N → N → Option N} (hp : PwOk pw) (ρ : ℕ → N) {a : ℕ} (ha : ρ a = 0) {x : Obj N} (hx : ¬ x.IsExpr) (h0 : x.value ρ = 0) :
    ∃ r, pow pw x (.expr a) = .ok r ∧ pw (x.value ρ) (ρ a) ≠ some (r.value ρ) := by
  refine ⟨.zero, ?_, ?_⟩
  · cases x with
    | expr b => exact absurd ⟨b, rfl⟩ hx
    | num k => exact if_pos h0
    | val k => exact if_pos h0
    | zero => exact if_pos rfl
    | one => exact absurd h0 one_ne_zero
  · rw [ha, hp.zero]
    intro h
    injection h with h
    exact one_ne_zero h

end pow

/-- Python's power of complex numbers -/
noncomputable def cpw (a b : ℂ) : Option ℂ := open Classical in if a = 0 ∧ b ≠ 0 ∧ b.re ≤ 0 then none else some (a ^ b)

/-- the hypotheses hold for complex numbers -/
theorem cpw_ok : PwOk cpw := by
  refine ⟨fun k => ?_, fun k => ?_, fun k => ?_⟩ <;> unfold cpw
  · rw [if_neg (fun h => h.2.1 rfl), Complex.cpow_zero]
  · rw [if_neg (fun h => by have := h.2.2; norm_num at this), Complex.cpow_one]
  · rw [if_neg (fun h => one_ne_zero h.1), Complex.one_cpow]

/-- ScalarValue(2)**(-1) -/
example : open Classical in pow cpw (.val 2) (.num (-1)) = .ok (.val (2⁻¹ : ℂ)) ∧ pow cpw .zero (.num (-1 : ℂ)) = .error .zeroDivision := by
  classical
  constructor
  · change createE (cpw 2 (-1)) = _
    unfold cpw
    rw [if_neg (fun h => two_ne_zero h.1), Complex.cpow_neg_one]
    change Except.ok (create (2⁻¹ : ℂ)) = _
    unfold create
    rw [if_neg (inv_ne_zero two_ne_zero), if_neg (by norm_num)]
  · change createE (cpw 0 (-1)) = _
    unfold cpw
    rw [if_pos ⟨rfl, by norm_num, by norm_num⟩]
    rfl

end QNET.ScalarCmp
