import Mathlib.Data.Finset.Sort
import Mathlib.Algebra.Field.Defs
import Verif.Mat.Model

/-!
# Model of `src/qnet/convert/to_qutip.py` (operators, kets, super-operators) and `src/qnet/convert/to_sympy_matrix.py`

A `qutip.Qobj` or `sympy.Matrix` is modelled by its shape and entries (`Mat.Mat`); the `dims` attribute of a `Qobj` is not modelled
beyond the shape. The functions of QuTiP and SymPy that are called (`qutip.create`, `qutip.jmat`, `qutip.basis`, `qutip.tensor`,
`TensorProduct`, …) are modelled according to their documentation. A Hilbert space is the set of its local factors; `local_factors`
lists them in ascending order; `d l` is the dimension of the local factor `l` (spaces without a basis are not modelled).
Not modelled: `PseudoInverse` and `NullSpaceProjector` (numerical linear algebra), coefficients that are not numbers.
-/

namespace QNET.Convert

open QNET.Perm (Res Err)
open QNET.Mat (Mat identity dot scalarMul)

/-- The `LocalOperator`s that the converters know: fock_operators.py, spin_algebra.py, `LocalSigma`; `unknown` is any other. -/
inductive Atom (K : Type) where
  | create
  | destroy
  | jz
  | jplus
  | jminus
  | phase (u : K)
  | displace (u : K)
  | squeeze (u : K)
  | sigma (j k : ℕ)
  | unknown
  deriving DecidableEq

/-- Operator expressions -/
inductive Ex (ι K : Type) where
  | one
  | zero
  | loc (l : ι) (a : Atom K)
  | sym (a : ℕ) (s : Finset ι)
  | plus (ts : List (Ex ι K))
  | times (ts : List (Ex ι K))
  | scal (c : K) (t : Ex ι K)
  | adj (t : Ex ι K)
  | ketbra (s : Finset ι)

variable {ι K : Type} [LinearOrder ι]

mutual
/-- `expr.space` -/
def Ex.space : Ex ι K → Finset ι
  | .one => ∅
  | .zero => ∅
  | .loc l _ => {l}
  | .sym _ s => s
  | .plus ts => spaceL ts
  | .times ts => spaceL ts
  | .scal _ t => t.space
  | .adj t => t.space
  | .ketbra s => s
/-- the union of the spaces of a list of operators -/
def spaceL : List (Ex ι K) → Finset ι
  | [] => ∅
  | t :: ts => t.space ∪ spaceL ts
end

/-- `space.local_factors`, in canonical order (by insertion sort, which can be evaluated; `factors_eq` compares with `Finset.sort`) -/
def factors (S : Finset ι) : List ι := Quot.liftOn S.val (List.insertionSort (· ≤ ·)) fun a b h =>
  List.Perm.eq_of_pairwise' (r := (· ≤ ·)) (List.pairwise_insertionSort _ _) (List.pairwise_insertionSort _ _)
    (((List.perm_insertionSort _ a).trans h).trans (List.perm_insertionSort _ b).symm)

omit K in
theorem factors_eq (S : Finset ι) : factors S = S.sort (· ≤ ·) := by
  obtain ⟨s, hs⟩ := S
  induction s using Quot.inductionOn with
  | h l =>
    show List.insertionSort _ l = Finset.sort ⟨Quot.mk _ l, hs⟩ _
    rw [← List.mergeSort_eq_insertionSort]
    rfl

section

variable [Field K]

/-- `numpy.kron` -/
def kron (M N : Mat K) : Mat K := ⟨M.r * N.r, M.c * N.c, fun i j => M.e (i / N.r) (j / N.c) * N.e (i % N.r) (j % N.c)⟩

/-- `qutip.tensor(*l)`, `TensorProduct(*l)` -/
def kronL : List (Mat K) → Mat K
  | [] => identity 1
  | M :: l => kron M (kronL l)

/-- adding two objects; different shapes are a `TypeError` (QuTiP) -/
def addQ (M N : Mat K) : Res (Mat K) :=
  if M.r = N.r ∧ M.c = N.c then .ok ⟨M.r, M.c, fun i j => M.e i j + N.e i j⟩ else .error .typeError

/-- `sum(l, 0)`, from the left. The empty sum is the number 0, which is not a matrix: `Err.other`. -/
def sumQ : List (Mat K) → Res (Mat K)
  | [] => .error .other
  | M :: l => l.foldlM addQ M

/-- `reduce(lambda a, b: a * b, l, 1)`, from the left -/
def prodQ : List (Mat K) → Res (Mat K)
  | [] => .error .other
  | M :: l => l.foldlM dot M

/-- What the environment provides: dimensions of local spaces; square roots, `expI φ` = exp(iφ); the `mapping` argument (a callable value is represented by its result); `expr.expand()`, with `none` if the
result is equal to `expr`. -/
structure Env (ι K : Type) where
  d : ι → ℕ
  sqrt : ℕ → K
  expI : K → K
  mapping : Ex ι K → Option (Mat K)
  expand : Ex ι K → Option (Ex ι K)

/-- `qutip.create(n)`: `⟨i+1| a† |i⟩ = √(i+1)` -/
def createM (T : Env ι K) (n : ℕ) : Mat K := ⟨n, n, fun i j => if i = j + 1 then T.sqrt i else 0⟩

/-- `qutip.destroy(n)` -/
def destroyM (T : Env ι K) (n : ℕ) : Mat K := ⟨n, n, fun i j => if j = i + 1 then T.sqrt j else 0⟩

/-- `qutip.jmat(j, 'z')` with `n = 2j + 1`: the diagonal is `j, j-1, …, -j` -/
def jmatZ (n : ℕ) : Mat K := ⟨n, n, fun i k => if i = k then ((n : K) - 1) / 2 - (i : K) else 0⟩

/-- `qutip.jmat(j, '+')`: `⟨m+1| J₊ |m⟩ = √((j-m)(j+m+1))`, states in the order `m = j, j-1, …` -/
def jmatP (T : Env ι K) (n : ℕ) : Mat K := ⟨n, n, fun i k => if k = i + 1 then T.sqrt ((i + 1) * (n - 1 - i)) else 0⟩

/-- `qutip.jmat(j, '-')` -/
def jmatM (T : Env ι K) (n : ℕ) : Mat K := ⟨n, n, fun i k => if i = k + 1 then T.sqrt ((k + 1) * (n - 1 - k)) else 0⟩

/-- `qutip.basis(n, i)`; an index outside the range is a `ValueError` -/
def basisQ (n i : ℕ) : Res (Mat K) := if i < n then .ok ⟨n, 1, fun a _ => if a = i then 1 else 0⟩ else .error .valueError

/-- The part of `_convert_local_operator_to_qutip` for `full_space == expr.space`, to_qutip.py lines 194-226. `Phase`, `Displace` and
`Squeeze` read `expr.operands[1]`, but a `LocalOperator` has no attribute `operands` (only `Operation`s have one): `AttributeError`.
Integer level indices only. -/
def atomQ (T : Env ι K) (n : ℕ) : Atom K → Res (Mat K)
  | .create => .ok (createM T n)
  | .jz => .ok (jmatZ n)
  | .jplus => .ok (jmatP T n)
  | .jminus => .ok (jmatM T n)
  | .destroy => .ok (destroyM T n)
  | .phase _ => .error .attributeError
  | .displace _ => .error .attributeError
  | .squeeze _ => .error .attributeError
  | .sigma j k => do
    let ket ← basisQ n j
    let bra ← basisQ n k
    dot ket (Mat.transpose bra)
  | .unknown => .error .valueError

/-- `[qeye(s.dimension) for s in all_spaces[:i]] + [m] + [qeye(s.dimension) for s in all_spaces[i + 1:]]`, to_qutip.py lines 185-192 and
to_sympy_matrix.py lines 65-71 -/
def placeAt (T : Env ι K) (fs : List ι) (l : ι) (m : Mat K) : List (Mat K) :=
  let i := fs.idxOf l
  (fs.take i).map (fun s => identity (T.d s)) ++ [m] ++ (fs.drop (i + 1)).map (fun s => identity (T.d s))

/-- One entry of `by_space`, to_qutip.py lines 244-254: the product of the factors on the local space `ls`, or the identity.
`conv` converts an operator on its own space. -/
def bySpace (T : Env ι K) (conv : Ex ι K → Res (Mat K)) (ts : List (Ex ι K)) (ls : ι) : Res (Mat K) := do
  let ms ← (ts.filter fun o => decide (o.space = {ls})).mapM conv
  if ms.length ≠ 0 then prodQ ms else .ok (identity (T.d ls))

/-- the number `ck` of factors that have been taken into account, to_qutip.py lines 243, 251 -/
def ck (ts : List (Ex ι K)) (fs : List ι) : ℕ := (fs.map fun ls => (ts.filter fun o => decide (o.space = {ls})).length).sum

/-- `convert_to_qutip` for operators, to_qutip.py lines 44-118, with `_convert_local_operator_to_qutip` (181-226) and
`_convert_operator_operation_to_qutip` (229-304). `qutip.dag` raises `TypeError` for anything but a `Qobj`, so an `Adjoint` is never
converted (line 259). `KetBra` is both an `Operator` and an `Operation` and ends in the `ValueError` of lines 302-304. -/
def convQ (T : Env ι K) : ℕ → Finset ι → Ex ι K → Res (Mat K)
  | 0, _, _ => .error .recursion
  | n + 1, S, e =>
    if ¬ e.space ⊆ S then .error .valueError
    else if S = ∅ then .error .algebraError
    else
      match T.mapping e with
      | some M => .ok M
      | none =>
        match e with
        | .one => .ok (kronL ((factors S).map fun s => identity (T.d s)))
        | .zero => .ok (kronL ((factors S).map fun s => Mat.zeros (T.d s) (T.d s)))
        | .loc l a =>
          if S ≠ {l} then do
            let m ← convQ T n {l} (.loc l a)
            .ok (kronL (placeAt T (factors S) l m))
          else atomQ T (T.d l) a
        | .plus ts => do
          let ms ← ts.mapM (convQ T n S)
          sumQ ms
        | .times ts =>
          if ts.any (fun o => decide (1 < o.space.card)) then
            match T.expand (.times ts) with
            | none => .error .valueError
            | some e' => convQ T n S e'
          else do
            let bys ← (factors S).mapM (fun ls => bySpace T (fun o => convQ T n {ls} o) ts ls)
            if ck ts (factors S) = ts.length then .ok (kronL bys) else .error .assertion
        | .scal c t => do
          let m ← convQ T n S t
          .ok (scalarMul c m)
        | .adj _ => .error .typeError
        | .sym _ _ => .error .valueError
        | .ketbra _ => .error .valueError

/-! ## kets -/

/-- Kets: `BasisKet`, `CoherentStateKet`, `KetPlus`, `TensorKet`, `ScalarTimesKet`, `OperatorTimesKet`, `Bra`, other states -/
inductive Kt (ι K : Type) where
  | basis (l : ι) (i : ℕ)
  | coherent (l : ι) (u : K)
  | plus (ts : List (Kt ι K))
  | tensor (ts : List (Kt ι K))
  | scal (c : K) (t : Kt ι K)
  | opTimes (A : Ex ι K) (t : Kt ι K)
  | bra (t : Kt ι K)
  | sym (a : ℕ) (s : Finset ι)

mutual
/-- `ket.space` -/
def Kt.space : Kt ι K → Finset ι
  | .basis l _ => {l}
  | .coherent l _ => {l}
  | .plus ts => kspaceL ts
  | .tensor ts => kspaceL ts
  | .scal _ t => t.space
  | .opTimes _ t => t.space
  | .bra t => t.space
  | .sym _ s => s
/-- the union of the spaces of a list of kets -/
def kspaceL : List (Kt ι K) → Finset ι
  | [] => ∅
  | t :: ts => t.space ∪ kspaceL ts
end

/-- `all_spaces.index(expr.space)`: `ValueError` if the space of the state is not a single local factor -/
def ownIndex (fs : List ι) (S : Finset ι) : Res ι :=
  match fs.find? (fun l => decide (S = {l})) with
  | some l => .ok l
  | none => .error .valueError

/-- `convert_to_qutip` for states, to_qutip.py lines 44-77, 100-101, with `_convert_ket_to_qutip` (331-367). `CoherentStateKet` has no
attribute `operands` (line 345), `OperatorTimesKet` has no attribute `coeff` (line 363; its properties are `operator` and `ket`,
state_algebra.py lines 483-510): `AttributeError`. A `Bra` or a symbol ends in the `ValueError` of lines 365-367; `ZeroKet` and `TrivialKet`
behave like a symbol without a space. Simplifications: no `mapping`; `expandK` is `expr.expand()` for a ket, with `none` if the result is equal to `expr`. -/
def convK (T : Env ι K) (expandK : Kt ι K → Option (Kt ι K)) : ℕ → Finset ι → Kt ι K → Res (Mat K)
  | 0, _, _ => .error .recursion
  | n + 1, S, k =>
    if ¬ k.space ⊆ S then .error .valueError
    else if S = ∅ then .error .algebraError
    else if S ≠ k.space then do
      let l ← ownIndex (factors S) k.space
      let m ← convK T expandK n k.space k
      .ok (kronL (placeAt T (factors S) l m))
    else
      match k with
      | .basis l i => basisQ (T.d l) i
      | .coherent _ _ => .error .attributeError
      | .plus ts => do
        let ms ← ts.mapM (convK T expandK n S)
        sumQ ms
      | .tensor ts =>
        if ts.any (fun o => decide (1 < o.space.card)) then
          match expandK (.tensor ts) with
          | none => .error .valueError
          | some k' => convK T expandK n S k'
        else do
          let ms ← ts.mapM (fun o => convK T expandK n o.space o)
          .ok (kronL ms)
      | .scal c t => do
        let m ← convK T expandK n S t
        .ok (scalarMul c m)
      | .opTimes _ _ => .error .attributeError
      | .bra _ => .error .valueError
      | .sym _ _ => .error .valueError

/-- `convert_to_qutip` for a `BraKet`: its space is the trivial space (state_algebra.py line 608), so a non-trivial `full_space` is never
equal to it and `_convert_state_operation_to_qutip`, to_qutip.py lines 307-317, looks up the trivial space in the list of local factors;
the sum of a list and a `Qobj` in line 314 would be a `TypeError`. -/
def convBraKet (S : Finset ι) : Res (Mat K) :=
  if S = ∅ then .error .algebraError
  else do
    let _ ← ownIndex (factors S) (∅ : Finset ι)
    .error .typeError

/-! ## super-operators -/

/-- Super-operators (super_operator_algebra.py) -/
inductive Sp (ι K : Type) where
  | one
  | zero
  | plus (ts : List (Sp ι K))
  | times (ts : List (Sp ι K))
  | scal (c : K) (t : Sp ι K)
  | spre (A : Ex ι K)
  | spost (A : Ex ι K)

mutual
/-- the space of a super-operator -/
def Sp.space : Sp ι K → Finset ι
  | .one => ∅
  | .zero => ∅
  | .plus ts => sspaceL ts
  | .times ts => sspaceL ts
  | .scal _ t => t.space
  | .spre A => A.space
  | .spost A => A.space
/-- the union of the spaces -/
def sspaceL : List (Sp ι K) → Finset ι
  | [] => ∅
  | t :: ts => t.space ∪ sspaceL ts
end

/-- `convert_to_qutip` for super-operators without a `mapping`: lines 61-69, 102-103 and `_convert_superoperator_to_qutip`, lines 370-409.
If `full_space != expr.space` the function first converts on `expr.space` (line 377). Otherwise the first test is
`isinstance(expr, IdentitySuperOperator)` (line 381): `IdentitySuperOperator` is not a class but the singleton *object* (decorator
`singleton_object`, super_operator_algebra.py lines 67-68), for which `isinstance` raises `TypeError`. So none of the later branches is
reached. The case `full_space != expr.space` is modelled up to that inner conversion, which never returns. -/
def convSp : ℕ → Finset ι → Sp ι K → Res (Mat K)
  | 0, _, _ => .error .recursion
  | n + 1, S, p =>
    if ¬ p.space ⊆ S then .error .valueError
    else if S = ∅ then .error .algebraError
    else if S ≠ p.space then convSp n p.space p
    else .error .typeError

/-! ## SymPy -/

/-- `SympyCreate(n)`, to_sympy_matrix.py lines 27-33: the loop `a += sqrt(i) * |i⟩⟨i-1|` for `i = 1, …, n-1` -/
def sympyCreate (T : Env ι K) (n : ℕ) : Mat K :=
  ⟨n, n, fun i j => ((List.range' 1 (n - 1)).map fun k => T.sqrt k * ((if i = k then 1 else 0) * (if j = k - 1 then 1 else 0))).sum⟩

variable [StarRing K]

/-- The part for local operators on their own space, to_sympy_matrix.py lines 73-97 -/
def atomS (T : Env ι K) (n : ℕ) : Atom K → Res (Mat K)
  | .create => .ok (sympyCreate T n)
  | .jz => .ok (sympyCreate T n)
  | .jplus => .ok (sympyCreate T n)
  | .destroy => .ok (Mat.adjoint (sympyCreate T n))
  | .jminus => .ok (Mat.adjoint (sympyCreate T n))
  | .phase u => .ok ⟨n, n, fun i j => if i = j then T.expI ((i : K) * u) else 0⟩
  | .displace _ => .error .attributeError
  | .squeeze _ => .error .attributeError
  | .sigma j k => do
    let ket ← (if j < n then .ok ⟨n, 1, fun a _ => if a = j then 1 else 0⟩ else .error .indexError : Res (Mat K))
    let bra ← (if k < n then .ok ⟨n, 1, fun a _ => if a = k then 1 else 0⟩ else .error .indexError : Res (Mat K))
    dot ket (Mat.adjoint bra)
  | .unknown => .error .valueError

/-- `convert_to_sympy_matrix`, to_sympy_matrix.py lines 36-149. The result `none` stands for the Python integer `0`, which line 61 returns
for `ZeroOperator`; a matrix plus `0` is a `TypeError`, `(0).H` an `AttributeError`. -/
def convS (T : Env ι K) : ℕ → Finset ι → Ex ι K → Res (Option (Mat K))
  | 0, _, _ => .error .recursion
  | n + 1, S, e =>
    if ¬ e.space ⊆ S then .error .valueError
    else
      match e with
      | .one => .ok (some (identity ((factors S).map T.d).prod))
      | .zero => .ok none
      | .loc l a =>
        if S ≠ {l} then do
          match ← convS T n {l} (.loc l a) with
          | some m => .ok (some (kronL (placeAt T (factors S) l m)))
          | none => .error .typeError
        else do
          let m ← atomS T (T.d l) a
          .ok (some m)
      | .plus ts => do
        let ms ← ts.mapM (fun t => do
          match ← convS T n S t with
          | some m => .ok m
          | none => .error .typeError)
        let m ← sumQ ms
        .ok (some m)
      | .times ts =>
        if ts.any (fun o => decide (1 < o.space.card)) then
          match T.expand (.times ts) with
          | none => .error .valueError
          | some e' => convS T n S e'
        else do
          let bys ← (factors S).mapM (fun ls => bySpace T (fun o => do
            match ← convS T n {ls} o with
            | some m => .ok m
            | none => .error .typeError) ts ls)
          if ck ts (factors S) = ts.length then .ok (some (kronL bys)) else .error .assertion
      | .scal c t => do
        match ← convS T n S t with
        | some m => .ok (some (scalarMul c m))
        | none => .ok none
      | .adj t => do
        match ← convS T n S t with
        | some m => .ok (some (Mat.adjoint m))
        | none => .error .attributeError
      | .sym _ _ => .error .valueError
      | .ketbra _ => .error .valueError

end

end QNET.Convert
