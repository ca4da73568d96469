import Verif.Util.Sort

/-!
# Model of `src/qnet/utils/permutations.py`

Tuples of Python integers are `List Nat` (simplification: negative entries are not represented).
Exceptions are values of `Err`; a failing `assert` is `Err.assertion`.
-/

namespace QNET.Perm

/-- Exceptions. `BadPermutationError` is defined in permutations.py lines 12-15; `AlgebraError`,
`IncompatibleBlockStructures` in algebra/core/exceptions.py; `recursion` is Python's `RecursionError` (used by the
circuit model for exceeding the recursion depth), `basisNotSet` and `infiniteSum` are QNET's `BasisNotSetError` and
`InfiniteSumError`, `unboundLocal` is Python's `UnboundLocalError`, `other` a plain `Exception`; the rest are Python built-ins. -/
inductive Err where
  | valueError
  | badPermutation
  | indexError
  | typeError
  | assertion
  | algebraError
  | incompatibleBlocks
  | recursion
  | basisNotSet
  | keyError
  | unboundLocal
  | attributeError
  | infiniteSum
  | other
  deriving DecidableEq, Repr

/-- Result of a Python call: a value or a raised exception. -/
abbrev Res (α : Type _) := Except Err α

/-- Python's `sorted` on a sequence of integers. -/
def sorted (l : List Nat) : List Nat := isort (fun a b => decide (a ≤ b)) l

/-- Python's (stable) `sorted(l, key=key)`. -/
def sortedBy {α : Type} (key : α → Nat) (l : List α) : List α :=
  isort (fun a b => decide (key a ≤ key b)) l

/-- `seq[i]` for a non-negative index. -/
def getItem {α : Type} (s : List α) (i : Nat) : Res α :=
  match s[i]? with
  | some x => .ok x
  | none => .error .indexError

/-- `seq.index(x)`. -/
def index (s : List Nat) (x : Nat) : Res Nat :=
  match s.idxOf? x with
  | some i => .ok i
  | none => .error .valueError

/-- `check_permutation`, permutations.py lines 18-29:
`list(sorted(permutation)) == list(range(len(permutation)))`. -/
def check (p : List Nat) : Bool := sorted p == List.range p.length

/-- `invert_permutation`, permutations.py lines 32-39:
`tuple([permutation.index(p) for p in range(len(permutation))])`. -/
def invert (p : List Nat) : Res (List Nat) := (List.range p.length).mapM (index p)

/-- The `while True` loop of `permutation_to_disjoint_cycles`, permutations.py lines 75-95.
`pIndex` = `p_index`, `cur` = `current_cycle`, `rem` = `permutation_nums`, `cycles` = `cycles`.
`permutation_nums.remove(x)` raises `ValueError` if `x` is absent. -/
def cycleLoop (p : List Nat) (pIndex : Nat) (cur rem : List Nat) (cycles : List (List Nat)) :
    Res (List (List Nat)) :=
  match p[pIndex]? with
  | none => .error .indexError
  | some q =>
    match cur with
    | [] => .error .indexError
    | c0 :: _ =>
      if q = c0 then
        match rem with
        | [] => .ok (cycles ++ [cur])
        | r :: rest => cycleLoop p r [r] rest (cycles ++ [cur])
      else if q ∈ rem then cycleLoop p q (cur ++ [q]) (rem.erase q) cycles
      else .error .valueError
termination_by rem.length
decreasing_by
  · simp
  · rename_i h
    have := List.length_erase_of_mem h
    have h2 : 0 < rem.length := List.length_pos_of_mem h
    omega

/-- `permutation_to_disjoint_cycles`, permutations.py lines 42-97, called with a tuple.
Line 68-69: the error message is built with `'Malformed permutation %r' % permutation`; for a *tuple*
argument the `%` operator takes the tuple as the list of values to format, so it raises
`TypeError` unless the tuple has exactly one entry. -/
def toCycles (p : List Nat) : Res (List (List Nat)) :=
  if !check p then
    if p.length = 1 then .error .badPermutation else .error .typeError
  else cycleLoop p 0 [0] (List.range' 1 (p.length - 1)) []

/-- `x - offset` followed by use as a list index. Simplification: Python would wrap a negative
index around; here it is an `IndexError` (only reachable for malformed cycle lists). -/
def subIdx (x offset : Nat) : Res Nat :=
  if x < offset then .error .indexError else .ok (x - offset)

/-- `res_perm[i] = v`. -/
def setItem (l : List Nat) (i v : Nat) : Res (List Nat) :=
  if i < l.length then .ok (l.set i v) else .error .indexError

/-- Inner loop of `permutation_from_disjoint_cycles`, permutations.py lines 112-116:
walk the rest of the cycle, setting `res_perm[p1] = p2`; finally close the cycle with `first`. -/
def fromCycleLoop (offset first : Nat) : (res : List Nat) → (p1 : Nat) → (rest : List Nat) → Res (List Nat)
  | res, p1, [] => setItem res p1 first
  | res, p1, p2 :: rest => do
    let p2' ← subIdx p2 offset
    let res' ← setItem res p1 p2'
    fromCycleLoop offset first res' p2' rest

/-- Outer loop of `permutation_from_disjoint_cycles`, permutations.py lines 111-116. -/
def fromCyclesLoop (offset : Nat) : (res : List Nat) → (cycles : List (List Nat)) → Res (List Nat)
  | res, [] => .ok res
  | _, [] :: _ => .error .indexError
  | res, (c0 :: rest) :: cs => do
    let p1 ← subIdx c0 offset
    let res' ← fromCycleLoop offset p1 res p1 rest
    fromCyclesLoop offset res' cs

/-- `permutation_from_disjoint_cycles(cycles, offset)`, permutations.py lines 100-119. -/
def fromCycles (cycles : List (List Nat)) (offset : Nat := 0) : Res (List Nat) := do
  let n := (cycles.map List.length).sum
  let res ← fromCyclesLoop offset (List.range n) cycles
  if sorted res = List.range n then .ok res else .error .assertion

/-- Python's `max` of a non-empty list of numbers. -/
def maxOf (l : List Nat) : Nat := l.foldl max 0

/-- The `for c in cycles[1:]` loop of `permutation_to_block_permutations` and the code after it,
permutations.py lines 143-163. `start`, `stop`, `cur` = `current_block_start/end/cycles`,
`res` = `res_permutations`.  `n` is `len(permutation)` (used in the last assertion). -/
def blockLoop (n : Nat) : (start stop : Nat) → (cur : List (List Nat)) → (res : List (List Nat)) →
    (cycles : List (List Nat)) → Res (List (List Nat))
  | start, stop, cur, res, [] => do
    let b ← fromCycles cur start
    let res := res ++ [b]
    if (cur.map List.length).sum ≠ stop - start + 1 then .error .assertion
    else if (res.map List.length).sum ≠ n then .error .assertion
    else .ok res
  | _, _, _, _, [] :: _ => .error .indexError
  | start, stop, cur, res, (c0 :: ct) :: cs =>
    if c0 > stop then do
      let b ← fromCycles cur start
      if (cur.map List.length).sum ≠ stop - start + 1 then .error .assertion
      else blockLoop n c0 (maxOf (c0 :: ct)) [c0 :: ct] (res ++ [b]) cs
    else
      blockLoop n start (if maxOf (c0 :: ct) > stop then maxOf (c0 :: ct) else stop)
        (cur ++ [c0 :: ct]) res cs

/-- `permutation_to_block_permutations`, permutations.py lines 122-163. -/
def toBlocks (p : List Nat) : Res (List (List Nat)) :=
  if p.length = 0 ∨ !check p then .error .badPermutation
  else do
    let cycles ← toCycles p
    match cycles with
    | [_] => .ok [p]
    | (c0 :: ct) :: cs => blockLoop p.length c0 (maxOf (c0 :: ct)) [c0 :: ct] [] cs
    | _ => .error .indexError

/-- Loop of `permutation_from_block_permutations`, permutations.py lines 179-184. (The slice
assignment always appends since `offset = len(new_perm)`.) -/
def fromBlocksLoop : (offset : Nat) → (newPerm : List Nat) → List (List Nat) → List Nat
  | _, newPerm, [] => newPerm
  | offset, newPerm, p :: ps => fromBlocksLoop (offset + p.length) (newPerm ++ p.map (· + offset)) ps

/-- `permutation_from_block_permutations`, permutations.py lines 166-184. -/
def fromBlocks (ps : List (List Nat)) : List Nat := fromBlocksLoop 0 [] ps

/-- `concatenate_permutations`, permutations.py lines 207-218. -/
def concatenate (a b : List Nat) : List Nat := fromBlocks [a, b]

/-- `permute`, permutations.py lines 221-239. -/
def permute {α : Type} (s : List α) (p : List Nat) : Res (List α) :=
  if s.length ≠ p.length then .error .valueError
  else if !check p then .error .badPermutation
  else p.mapM (getItem s)

/-- `compose_permutations`, permutations.py lines 187-203. -/
def compose (alpha beta : List Nat) : Res (List Nat) := permute alpha beta

/-- Loop body of `full_block_perm`, permutations.py lines 258-261: the channel range produced for
block `k` of length `blockLength`. -/
def blockRange (bp bpInv structure_ : List Nat) (k blockLength : Nat) : Res (List Nat) := do
  let pk ← getItem bp k
  let sizes ← (List.range pk).mapM (fun j => do
    let b ← getItem bpInv j
    getItem structure_ b)
  .ok (List.range' sizes.sum blockLength)

/-- `full_block_perm`, permutations.py lines 242-266. -/
def fullBlockPerm (bp structure_ : List Nat) : Res (List Nat) := do
  let bpInv ← invert bp
  let ranges ← structure_.zipIdx.mapM (fun (len, k) => blockRange bp bpInv structure_ k len)
  let f := ranges.flatten
  if sorted f = List.range structure_.sum then .ok f else .error .assertion

/-- Python's `min` of a list (`ValueError` on an empty sequence). -/
def minOf : List Nat → Res Nat
  | [] => .error .valueError
  | x :: xs => .ok (xs.foldl min x)

/-- The block images `[permutation[offset: offset + length] ...]`, permutations.py lines 284-285. -/
def images (p : List Nat) : (offset : Nat) → List Nat → List (List Nat)
  | _, [] => []
  | offset, len :: rest => ((p.drop offset).take len) :: images p (offset + len) rest

/-- `sorted(range(n), key=lambda k: keys[k])`, as used in permutations.py lines 292 and 306. -/
def argsort (n : Nat) (keys : List Nat) : List Nat := sortedBy (fun k => keys.getD k 0) (List.range n)

/-- Body of the `for (offset, length, image)` loop of `block_perm_and_perms_within_blocks`,
permutations.py lines 303-310. -/
def withinBlock (p : List Nat) (offset length : Nat) (image : List Nat) : Res (List Nat) := do
  let withinInv := argsort length image
  let within ← invert withinInv
  let first ← getItem withinInv 0
  let mn ← minOf image
  let x ← getItem p (first + offset)
  if x ≠ mn then .error .assertion else do
    let last ← getItem withinInv (withinInv.length - 1)
    let y ← getItem p (last + offset)
    if y ≠ maxOf image then .error .assertion else .ok within

/-- The loop at permutations.py lines 302-310. -/
def withinBlocks (p : List Nat) : (offset : Nat) → List Nat → List (List Nat) → Res (List (List Nat))
  | offset, len :: rest, image :: imgs => do
    let w ← withinBlock p offset len image
    let ws ← withinBlocks p (offset + len) rest imgs
    .ok (w :: ws)
  | _, _, _ => .ok []

/-- `block_perm_and_perms_within_blocks`, permutations.py lines 269-312. -/
def blockPermAndWithin (p structure_ : List Nat) : Res (List Nat × List (List Nat)) := do
  let nblocks := structure_.length
  let imgs := images p 0 structure_
  let mins ← imgs.mapM minOf
  let bpInv := argsort nblocks mins
  let bp ← invert bpInv
  let first ← getItem bpInv 0
  let mFirst ← getItem mins first
  let mMin ← minOf mins
  if mFirst ≠ mMin then .error .assertion else do
    let last ← getItem bpInv (bpInv.length - 1)
    let mLast ← getItem mins last
    if mLast ≠ maxOf mins then .error .assertion else do
      let ws ← withinBlocks p 0 structure_ imgs
      .ok (bp, ws)

end QNET.Perm
