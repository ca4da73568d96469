import Mathlib.Algebra.BigOperators.Group.Finset.Basic
import Mathlib.Algebra.Star.BigOperators
import Mathlib.Algebra.Ring.Defs
import Verif.Perm.Model

/-!
# Model of `src/qnet/algebra/core/matrix_algebra.py`

A `Matrix` object wraps a two-dimensional numpy array of Python objects. It is modelled by its shape and an entry function
that is only read inside the shape. Simplifications: the reshaping of one-dimensional input (lines 42-43) and the error for
more than two dimensions are not modelled; numpy's dtype handling is not modelled (entries keep their value).

`z : α → Bool` stands for the comparison `entry == 0`, so that the block functions can be run on entries for which this
comparison is not the mathematical one (see `Entry`).
-/

namespace QNET.Mat

open QNET.Perm (Res Err)

/-- a `Matrix` (lines 26-52): number of rows, of columns, and entries -/
structure Mat (α : Type) where
  r : ℕ
  c : ℕ
  e : ℕ → ℕ → α

section blocks

variable {α : Type}

/-- `M[rlo:rhi, clo:chi]` (`__getitem__`, lines 279-283, with numpy's slicing: bounds are clipped to the shape) -/
def Mat.slice (M : Mat α) (rlo rhi clo chi : ℕ) : Mat α :=
  ⟨min rhi M.r - rlo, min chi M.c - clo, fun i j => M.e (rlo + i) (clo + j)⟩

/-- `(array == 0).all()` -/
def Mat.allZero (z : α → Bool) (M : Mat α) : Bool :=
  (List.range M.r).all fun i => (List.range M.c).all fun j => z (M.e i j)

/-- The test `(M[:k, k:] == 0).all() and (M[k:, :k] == 0).all()` of lines 65-66 and 79-80. -/
def Mat.splitTest (z : α → Bool) (M : Mat α) (k : ℕ) : Bool :=
  (M.slice 0 k k M.c).allZero z && (M.slice k M.r 0 k).allZero z

/-- `Matrix.block_structure`, lines 54-68. -/
def blockStructure (z : α → Bool) (M : Mat α) : Res (List ℕ) :=
  if M.r ≠ M.c then .error .attributeError
  else
    match h : (List.range' 1 (M.r - 1)).find? (M.splitTest z) with
    | some k => do
      let rest ← blockStructure z (M.slice k M.r k M.c)
      .ok (k :: rest)
    | none => .ok [M.r]
termination_by M.r
decreasing_by
  have h1 := List.mem_of_find?_eq_some h
  simp only [List.mem_range'_1] at h1
  simp only [Mat.slice]
  omega

/-- `Matrix._get_blocks`, lines 70-95. Simplification: block sizes are natural numbers. -/
def getBlocks (z : α → Bool) (M : Mat α) (bs : List ℕ) : Res (List (Mat α)) :=
  if M.r = M.c then
    if bs.sum ≠ M.r then .error .valueError
    else
      match bs with
      | [] => .ok []
      | j :: rest =>
        if M.splitTest z j then do
          let t ← getBlocks z (M.slice j M.r j M.c) rest
          .ok (M.slice 0 j 0 j :: t)
        else .error .valueError
  else if M.c = 1 then
    match bs with
    | [] => .ok []
    | j :: rest => do
      let t ← getBlocks z (M.slice 0 j 0 M.c) rest
      .ok (M.slice 0 j 0 M.c :: t)
  else .error .valueError
termination_by bs.length

/-- `Matrix.is_zero`, lines 100-110; `z` is `o.is_zero`, or `o == 0` where there is no such attribute. -/
def isZero (z : α → Bool) (M : Mat α) : Bool := M.allZero z

/-- Entries of a matrix of operators: plain numbers, the singleton `ZeroOperator`, other operators. -/
inductive Entry where
  | num (x : ℤ)
  | zeroOp
  | op (name : ℕ)
  deriving DecidableEq, Repr

/-- `entry == 0`: `ZeroOperator` is a `Singleton` without `_hash_val`, so it is equal only to itself
(utils/singleton.py lines 62-67; operator_algebra.py lines 279-301); other operators compare by instance key, an integer has none
(abstract_algebra.py lines 363-368). -/
def Entry.eqZero : Entry → Bool
  | .num x => x == 0
  | _ => false

/-- the test used by `is_zero` (lines 103-109; abstract_quantum_algebra.py `is_zero`: `self == self._zero`) -/
def Entry.isZero : Entry → Bool
  | .num x => x == 0
  | .zeroOp => true
  | .op _ => false

end blocks

section ring

variable {A : Type} [Ring A]

open Finset

/-- one dimension of numpy broadcasting -/
def bdim (a b : ℕ) : Res ℕ := if a = b then .ok a else if a = 1 then .ok b else if b = 1 then .ok a else .error .valueError

/-- `__add__` with a `Matrix`, lines 127-129: numpy's `+` on the arrays, which broadcasts dimensions of size 1. -/
def add (M N : Mat A) : Res (Mat A) := do
  let r ← bdim M.r N.r
  let c ← bdim M.c N.c
  .ok ⟨r, c, fun i j =>
    M.e (if M.r = r then i else 0) (if M.c = c then j else 0) + N.e (if N.r = r then i else 0) (if N.c = c then j else 0)⟩

/-- `__mul__` with a `Matrix`, lines 136-138: `array.dot`. Simplification: an empty sum is the zero of the ring. -/
def dot (M N : Mat A) : Res (Mat A) :=
  if M.c ≠ N.r then .error .valueError else .ok ⟨M.r, N.c, fun i j => ∑ k ∈ range M.c, M.e i k * N.e k j⟩

/-- `__mul__` with something else, line 140 -/
def mulScalar (M : Mat A) (a : A) : Mat A := ⟨M.r, M.c, fun i j => M.e i j * a⟩

/-- `__rmul__`, lines 142-143 -/
def scalarMul (a : A) (M : Mat A) : Mat A := ⟨M.r, M.c, fun i j => a * M.e i j⟩

/-- `__sub__`, lines 145-146 -/
def sub (M N : Mat A) : Res (Mat A) := add M (scalarMul (-1) N)

/-- `__neg__`, lines 151-152 -/
def neg (M : Mat A) : Mat A := scalarMul (-1) M

/-- `transpose`, lines 163-165 -/
def transpose (M : Mat A) : Mat A := ⟨M.c, M.r, fun i j => M.e j i⟩

/-- `element_wise`, lines 285-300 -/
def elementWise {B C : Type} (f : B → C) (M : Mat B) : Mat C := ⟨M.r, M.c, fun i j => f (M.e i j)⟩

/-- `adjoint`, lines 261-265 -/
def adjoint [StarRing A] (M : Mat A) : Mat A := elementWise star (transpose M)

/-- `trace`, lines 269-272; `NonSquareMatrix` is represented by `Err.other`. -/
def trace (M : Mat A) : Res A := if M.r = M.c then .ok (∑ k ∈ range M.r, M.e k k) else .error .other

/-- `np.hstack` of two arrays, via `hstackm`, lines 369-371 -/
def hstack (M N : Mat A) : Res (Mat A) :=
  if M.r ≠ N.r then .error .valueError
  else .ok ⟨M.r, M.c + N.c, fun i j => if j < M.c then M.e i j else N.e i (j - M.c)⟩

/-- `np.vstack` of two arrays, via `vstackm`, lines 374-379 -/
def vstack (M N : Mat A) : Res (Mat A) :=
  if M.c ≠ N.c then .error .valueError
  else .ok ⟨M.r + N.r, M.c, fun i j => if i < M.r then M.e i j else N.e (i - M.r) j⟩

/-- `block_matrix`, lines 388-404 -/
def blockMatrix (a b c d : Mat A) : Res (Mat A) := do
  let t ← hstack a b
  let u ← hstack c d
  vstack t u

/-- `identity_matrix`, lines 407-417: `np.diag` of a vector of ones -/
def identity (n : ℕ) : Mat A := ⟨n, n, fun i j => if i = j then 1 else 0⟩

/-- `zerosm`, lines 420-422 -/
def zeros (r c : ℕ) : Mat A := ⟨r, c, fun _ _ => 0⟩

/-- `op_matrix[j, i] = 1`; `IndexError` outside the shape -/
def setEntry (M : Mat A) (i j : ℕ) (v : A) : Res (Mat A) :=
  if i < M.r ∧ j < M.c then .ok ⟨M.r, M.c, fun a b => if a = i ∧ b = j then v else M.e a b⟩ else .error .indexError

/-- the loop of `permutation_matrix`, lines 459-460 -/
def permLoop : Mat A → List (ℕ × ℕ) → Res (Mat A)
  | M, [] => .ok M
  | M, (j, i) :: rest => do
    let M' ← setEntry M j i 1
    permLoop M' rest

/-- `permutation_matrix`, lines 425-461: `enumerate` gives pairs (index, image), `zipIdx` the reverse. -/
def permutationMatrix (p : List ℕ) : Res (Mat A) :=
  if Perm.check p then permLoop (zeros p.length p.length) p.zipIdx else .error .assertion

end ring

section series

/-- `series_expand`, lines 302-318: `expand1 o` is the tuple `o.series_expand(param, about, order)`; `ravel` lists the entries by
rows, `zip(*…)` transposes the list of tuples, cutting it to the shortest one (to nothing if there are no entries). -/
def ravel {α : Type} (M : Mat α) : List α := (List.range M.r).flatMap fun i => (List.range M.c).map fun j => M.e i j

/-- the `k`-th tuple of `zip(*rows)` for all `k` below the shortest length -/
def zipStar {α : Type} (rows : List (List α)) : List (List α) :=
  match rows with
  | [] => []
  | x :: xs => (List.range ((x :: xs).map List.length |>.foldl min x.length)).map fun k => (x :: xs).filterMap (·[k]?)

/-- `np_array(em).reshape(s)` -/
def reshape {α : Type} [Inhabited α] (r c : ℕ) (l : List α) : Mat α := ⟨r, c, fun i j => l.getD (i * c + j) default⟩

/-- `series_expand` -/
def seriesExpand {α β : Type} [Inhabited β] (expand1 : α → List β) (M : Mat α) : List (Mat β) :=
  (zipStar ((ravel M).map expand1)).map (reshape M.r M.c)

end series

end QNET.Mat
