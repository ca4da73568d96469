import Verif.Perm.Model

/-!
# Model of the permutation circuits of `src/qnet/algebra/core/circuit_algebra.py`

`CPermutation.create` (lines 781-788) returns either a `CPermutation` or `circuit_identity(n)`; these two kinds of
objects are the constructors of `PC`.
-/

namespace QNET.CPerm

open QNET.Perm

/-- A permutation circuit: a `CPermutation` object (lines 749-1020) or the object `circuit_identity(n)`
(lines 1325-1339: `CircuitZero`, `CIdentity` or a `Concatenation` of `n` `CIdentity`s). -/
inductive PC where
  | perm (p : List Nat)
  | cid (n : Nat)
  deriving DecidableEq, Repr

/-- `CPermutation.cdim` (lines 815-817; `CIdentity`, `CircuitZero`, `Concatenation.cdim`). -/
def PC.cdim : PC → Nat
  | .perm p => p.length
  | .cid n => n

/-- The image tuple of a permutation circuit. (Accessor used for statements; `CPermutation.permutation`,
lines 806-809, and the identity tuple for `circuit_identity(n)`.) -/
def PC.tuple : PC → List Nat
  | .perm p => p
  | .cid n => List.range n

/-- `CPermutation.create`, lines 781-788. -/
def create (p : List Nat) : Res PC :=
  if !check p then .error .badPermutation
  else if p = List.range p.length then .ok (.cid p.length)
  else .ok (.perm p)

/-- `CPermutation.series_with_permutation`, lines 822-834. -/
def seriesWithPermutation (p q : List Nat) : Res PC := do
  let combined ← q.mapM (getItem p)
  create combined

/-- `SeriesProduct.create(a, b)` (circuit_algebra.py lines 1075-1088, `filter_cid` and `check_cdims` in
algebraic_properties.py lines 424-448, rule R001 of `SeriesProduct` in _rules.py lines 1034-1037), restricted to operands
that are permutation circuits: identities are dropped first, then the channel numbers are compared, then
R001 applies. (`Verif/Circuit` models the unrestricted `SeriesProduct.create`.) -/
def series : PC → PC → Res PC
  | .cid n, .cid _ => .ok (.cid n)
  | .cid _, .perm q => .ok (.perm q)
  | .perm p, .cid _ => .ok (.perm p)
  | .perm p, .perm q =>
    if p.length ≠ q.length then .error .valueError else seriesWithPermutation p q

/-- `CPermutation._series_inverse`, lines 836-837; `CIdentity._series_inverse` and
`Concatenation._series_inverse` for the identity circuits. -/
def seriesInverse : PC → Res PC
  | .perm p => do
    let q ← invert p
    .ok (.perm q)
  | .cid n => .ok (.cid n)

/-- `extract_channel`, lines 1365-1381. -/
def extractChannel (k n : Nat) : Res PC :=
  create (List.range k ++ [n - 1] ++ List.range' k (n - 1 - k))

/-- First loop of `map_channels`, lines 1402-1406: remove the target values from `free_values`.
`list.remove` raises `ValueError` if the value is absent. -/
def removeValues (n : Nat) : (free : List Nat) → (mapping : List (Nat × Nat)) → Res (List Nat)
  | free, [] => .ok free
  | free, (_, v) :: rest =>
    if v ≥ n then .error .valueError
    else if v ∈ free then removeValues n (free.erase v) rest
    else .error .valueError

/-- Second loop of `map_channels`, lines 1407-1410. -/
def checkKeys (n : Nat) : List (Nat × Nat) → Res Unit
  | [] => .ok ()
  | (k, _) :: rest => if k ≥ n then .error .valueError else checkKeys n rest

/-- Third loop of `map_channels`, lines 1411-1416. -/
def fill (mapping : List (Nat × Nat)) : (free : List Nat) → (ks : List Nat) → Res (List Nat)
  | _, [] => .ok []
  | free, k :: ks =>
    match mapping.lookup k with
    | some v => do
      let r ← fill mapping free ks
      .ok (v :: r)
    | none =>
      match free with
      | [] => .error .indexError
      | f :: fs => do
        let r ← fill mapping fs ks
        .ok (f :: r)

/-- The image tuple computed by `map_channels`, lines 1399-1416. The dict is a list of (key, value) pairs with distinct
keys. -/
def mapTuple (mapping : List (Nat × Nat)) (n : Nat) : Res (List Nat) := do
  let free ← removeValues n (List.range n) mapping
  checkKeys n mapping
  fill mapping free (List.range n)

/-- `map_channels`, lines 1384-1418. -/
def mapChannels (mapping : List (Nat × Nat)) (n : Nat) : Res PC := do
  let p ← mapTuple mapping n
  create p

/-- The composite `map_channels({out: n-1}, n) << self << map_channels({n-1: in}, n)` that occurs in
`_feedback`, `_factor_rhs` and `_factor_lhs` (lines 915-917, 955-957, 1002-1004). -/
def conjugate (p : List Nat) (out inp : Nat) : Res PC := do
  let n := p.length
  let m1 ← mapChannels [(out, n - 1)] n
  let m2 ← mapChannels [(n - 1, inp)] n
  let a ← series m1 (.perm p)
  series a m2

/-- `CPermutation._feedback`, lines 913-924. -/
def feedback (p : List Nat) (out inp : Nat) : Res PC := do
  let n := p.length
  let c ← conjugate p out inp
  match c with
  | .cid _ => .ok (.cid (n - 1))
  | .perm np => do
    let nInv ← index np (n - 1)
    let last ← getItem np (n - 1)
    create ((np.set nInv last).dropLast)

/-- `CPermutation._factor_rhs`, lines 926-972. -/
def factorRhs (p : List Nat) (inPort : Nat) : Res (Nat × PC) := do
  let n := p.length
  let inIm ← getItem p inPort
  let c ← conjugate p inIm inPort
  match c with
  | .perm q => do
    let last ← getItem q (n - 1)
    if last ≠ n - 1 then .error .assertion else do
      let red ← create q.dropLast
      .ok (inIm, red)
  | .cid _ => .ok (inIm, .cid (n - 1))

/-- `CPermutation._factor_lhs`, lines 974-1020. -/
def factorLhs (p : List Nat) (outPort : Nat) : Res (Nat × PC) := do
  let n := p.length
  if ¬ outPort < n then .error .assertion else do
  let outInv ← index p outPort
  let c ← conjugate p outPort outInv
  match c with
  | .perm q => do
    let last ← getItem q (n - 1)
    if last ≠ n - 1 then .error .assertion else do
      let red ← create q.dropLast
      .ok (outInv, red)
  | .cid _ => .ok (outInv, .cid (n - 1))

/-- The permutation tuple of `pad_with_identity`, lines 1448-1449. -/
def padTuple (circuitN k n : Nat) : List Nat :=
  List.range k ++ List.range' circuitN n ++ List.range' k (circuitN - k)

/-- Search loop of `Circuit.index_in_block`, lines 121-123; `fuel` bounds `cdim - i`. -/
def blockSearch (struct_ : List Nat) (cdim ch : Nat) : (i : Nat) → (fuel : Nat) → Nat
  | i, 0 => i
  | i, fuel + 1 => if (struct_.take i).sum ≤ ch ∧ i < cdim then blockSearch struct_ cdim ch (i + 1) fuel else i

/-- `Circuit.index_in_block`, lines 102-128. -/
def indexInBlock (struct_ : List Nat) (cdim ch : Nat) : Res (Nat × Nat) :=
  if ch ≥ cdim then .error .valueError
  else if struct_.length = 1 then .ok (ch, 0)
  else
    let i := blockSearch struct_ cdim ch 1 cdim
    .ok (ch - (struct_.take (i - 1)).sum, i - 1)

end QNET.CPerm
