import Verif.SLH.Model
import Verif.Engine.Model

/-!
# Model of circuit expressions and their automatic simplification

`src/qnet/algebra/core/circuit_algebra.py` (`SeriesProduct`, `Concatenation`, `Feedback`, `SeriesInverse`, `SLH`, `CPermutation`,
`CIdentity`, `CircuitZero`, `CircuitSymbol`) and the circuit rules of `src/qnet/algebra/_rules.py` (lines 822-1113).

The `create` methods call each other recursively without bound. The model makes one layer of that recursion explicit:
every function takes the four entry points (`SeriesProduct.create`, `Concatenation.create`, `Feedback.create`,
`Circuit.series_inverse`) as an argument `R : Ops`; `opsAt fuel` ties the knot up to recursion depth `fuel`, below which the
error `recursion` is raised (Python: `RecursionError`). Instance caches are left out (`Verif/Cache`).
-/

namespace QNET.Circuit

open QNET.Perm QNET.CPerm

variable {A : Type} [Ring A] [StarRing A] [Algebra ℂ A]

/-- Circuit expressions. `sym` is a `CircuitSymbol` or a library component (lines 580-747), its label, class and arguments being
represented by a number; `slh` an `SLH` object; the other constructors are the classes of the same name. Ports are natural
numbers (Python's negative indices are not modelled). -/
inductive Circ (A : Type) [Zero A] where
  | sym (name cdim : Nat)
  | slh (s : SLH A)
  | perm (p : List Nat)
  | id1
  | zero
  | series (ops : List (Circ A))
  | concat (ops : List (Circ A))
  | fb (c : Circ A) (out inp : Nat)
  | inv (c : Circ A)

mutual
/-- `cdim` of the classes: lines 359-362, 621-623, 815-817, 1030-1033, 1056-1059, 1086-1088 (first operand), 1117-1122 (sum),
1227-1231, 1300-1302. -/
def Circ.cdim : Circ A → Nat
  | .sym _ n => n
  | .slh s => s.n
  | .perm p => p.length
  | .id1 => 1
  | .zero => 0
  | .series ops => headCdim ops
  | .concat ops => sumCdim ops
  | .fb c _ _ => c.cdim - 1
  | .inv c => c.cdim
/-- `self.operands[0].cdim` -/
def headCdim : List (Circ A) → Nat
  | [] => 0
  | c :: _ => c.cdim
/-- `sum(circuit.cdim for circuit in self.operands)` -/
def sumCdim : List (Circ A) → Nat
  | [] => 0
  | c :: cs => c.cdim + sumCdim cs
end

mutual
/-- `Expression.__eq__` (abstract_algebra.py lines 201-207): equality of `_instance_key`, i.e. of class and positional arguments.
`Feedback.__init__` (lines 1218-1222) does not pass the ports on to `Expression.__init__`, so that the
ports of `Feedback` objects are ignored. -/
noncomputable def beq : Circ A → Circ A → Bool
  | .sym a n, .sym b m => a == b && n == m
  | .slh s, .slh t => @decide (s = t) (Classical.propDecidable _)
  | .perm p, .perm q => p == q
  | .id1, .id1 => true
  | .zero, .zero => true
  | .series l, .series l' => beqList l l'
  | .concat l, .concat l' => beqList l l'
  | .fb c _ _, .fb d _ _ => beq c d
  | .inv c, .inv d => beq c d
  | _, _ => false
/-- equality of operand tuples -/
noncomputable def beqList : List (Circ A) → List (Circ A) → Bool
  | [], [] => true
  | c :: cs, d :: ds => beq c d && beqList cs ds
  | _, _ => false
end

/-- `circuit_identity(n)`, lines 1325-1338. -/
def cid : Nat → Circ A
  | 0 => .zero
  | 1 => .id1
  | n + 2 => .concat (List.replicate (n + 2) .id1)

/-- `op == circuit_identity(op.cdim)`. -/
noncomputable def isCid (c : Circ A) : Bool := beq c (cid c.cdim)

/-- A permutation circuit as a circuit expression. -/
def ofPC : PC → Circ A
  | .perm p => .perm p
  | .cid n => cid n

/-- The mutually recursive entry points. -/
structure Ops (A : Type) [Zero A] where
  series : List (Circ A) → Res (Circ A)
  concat : List (Circ A) → Res (Circ A)
  feedback : Circ A → Nat → Nat → Res (Circ A)
  inverse : Circ A → Res (Circ A)

/-! ### Block structure -/

mutual
/-- `block_structure`: lines 66-100, 839-841, 1134-1140. -/
def blockStructure : Circ A → Res (List Nat)
  | .perm p => do
    let bs ← toBlocks p
    .ok (bs.map List.length)
  | .concat ops => blockStructureList ops
  | c => .ok [c.cdim]
/-- the loop of `Concatenation._block_structure` -/
def blockStructureList : List (Circ A) → Res (List Nat)
  | [] => .ok []
  | c :: cs => do
    let a ← blockStructure c
    let b ← blockStructureList cs
    .ok (a ++ b)
end

/-- Inner loop `while current_length < bl` of `Concatenation._get_blocks` (lines 1148-1151): take blocks until their total size
reaches `bl`. `next` raises `StopIteration` when the blocks are exhausted. Returns the blocks taken, their total size, and the
remaining blocks. -/
def takeBlocks (bl : Nat) : (current : Nat) → List (Circ A) → Res (List (Circ A) × Nat × List (Circ A))
  | cur, blocks =>
    if cur < bl then
      match blocks with
      | [] => .error .other
      | b :: rest => do
        let (taken, len, rest') ← takeBlocks bl (cur + b.cdim) rest
        .ok (b :: taken, len, rest')
    else .ok ([], cur, blocks)

/-- `Concatenation._get_blocks`, lines 1142-1159, after the individual blocks have been collected. -/
def regroup (R : Ops A) : (structure_ : List Nat) → (blocks : List (Circ A)) → Res (List (Circ A))
  | [], _ => .ok []
  | bl :: st, blocks => do
    let (taken, len, rest) ← takeBlocks bl 0 blocks
    if len ≠ bl then .error .incompatibleBlocks
    else do
      let c ← R.concat taken
      let cs ← regroup R st rest
      .ok (c :: cs)

/-- `CPermutation.create` on every block. -/
def createPerms (ps : List (List Nat)) : Res (List (Circ A)) :=
  ps.mapM (fun p => do
    let c ← create p
    .ok (ofPC c))

mutual
/-- `get_blocks()` with the circuit's own block structure: lines 147-157, 843-848, 1142-1159. -/
def ownBlocks (R : Ops A) : Circ A → Res (List (Circ A))
  | .perm p => do
    let bs ← toBlocks p
    createPerms bs
  | .concat ops => do
    let bs ← ownBlocksList R ops
    let st ← blockStructureList ops
    regroup R st bs
  | c => .ok [c]
/-- `sum((op.get_blocks() for op in self.operands), ())`, line 1144. -/
def ownBlocksList (R : Ops A) : List (Circ A) → Res (List (Circ A))
  | [] => .ok []
  | c :: cs => do
    let a ← ownBlocks R c
    let b ← ownBlocksList R cs
    .ok (a ++ b)
end

/-- Inner loop of `CPermutation._get_blocks` (lines 857-860): concatenate block permutations until the size `l` is
reached. -/
def takePerms (l : Nat) : (current : List Nat) → List (List Nat) → Res (List Nat × List (List Nat))
  | cur, blocks =>
    if cur.length < l then
      match blocks with
      | [] => .error .other
      | b :: rest => takePerms l (cur ++ b.map (· + cur.length)) rest
    else .ok (cur, blocks)

/-- Outer loop of `CPermutation._get_blocks`, lines 856-865. -/
def regroupPerms : (structure_ : List Nat) → List (List Nat) → Res (List (List Nat))
  | [], _ => .ok []
  | l :: st, blocks => do
    let (cur, rest) ← takePerms l [] blocks
    if cur.length ≠ l then .error .other
    else do
      let ps ← regroupPerms st rest
      .ok (cur :: ps)

/-- `get_blocks(block_structure)`, lines 130-158, 843-866, 1142-1159. -/
def getBlocks (R : Ops A) (c : Circ A) (st : List Nat) : Res (List (Circ A)) :=
  match c with
  | .perm p => do
    let bs ← toBlocks p
    if st = bs.map List.length then createPerms bs
    else if st.length > bs.length then .error .other
    else if st.sum ≠ p.length then .error .other
    else do
      let ps ← regroupPerms st bs
      createPerms ps
  | .concat ops => do
    let bs ← ownBlocksList R ops
    regroup R st bs
  | c => if st = [c.cdim] then .ok [c] else .error .incompatibleBlocks

/-- Loop of `_get_common_block_structure` (`_rules.py` lines 853-862): the first `(i, j)` with equal partial sums.
The arguments are the partial sums and the remaining blocks. The Python loop never ends if a list is exhausted (impossible for
equal totals); the model then raises `other`. -/
def commonLoop : (fuel : Nat) → (lsum rsum : Nat) → (l r : List Nat) → Res (Nat × List Nat × List Nat)
  | 0, _, _, _, _ => .error .recursion
  | f + 1, lsum, rsum, l, r =>
    if lsum < rsum then
      match l with
      | [] => .error .other
      | a :: l' => commonLoop f (lsum + a) rsum l' r
    else if rsum < lsum then
      match r with
      | [] => .error .other
      | b :: r' => commonLoop f lsum (rsum + b) l r'
    else .ok (lsum, l, r)

/-- `_get_common_block_structure`, `_rules.py` lines 823-864. `i = j = 1` at the start: the first blocks (or nothing, if a list is
empty) are taken on both sides. The recursion is bounded by the number of blocks. -/
def commonStructure : (fuel : Nat) → List Nat → List Nat → Res (List Nat)
  | 0, _, _ => .error .recursion
  | f + 1, l, r =>
    if l.sum ≠ r.sum then .error .incompatibleBlocks
    else if l = [] ∧ r = [] then .ok []
    else do
      let (s, l', r') ← commonLoop (l.length + r.length + 1) (l.headD 0) (r.headD 0) l.tail r.tail
      let rest ← commonStructure f l' r'
      .ok (s :: rest)

/-- `index_in_block`, lines 102-128. Returns `(index in block, block index)`. -/
def indexLoop (st : List Nat) (channel cdim : Nat) : (fuel i : Nat) → Nat
  | 0, i => i
  | f + 1, i => if (st.take i).sum ≤ channel ∧ i < cdim then indexLoop st channel cdim f (i + 1) else i

/-- `index_in_block`, lines 102-128. The loop variable `i` stays below `cdim`, so `cdim` iterations suffice. -/
def indexInBlock (c : Circ A) (channel : Nat) : Res (Nat × Nat) := do
  if channel ≥ c.cdim then .error .valueError
  else do
    let st ← blockStructure c
    if st.length = 1 then .ok (channel, 0)
    else
      let i := indexLoop st channel c.cdim c.cdim 1
      .ok (channel - (st.take (i - 1)).sum, i - 1)

/-! ### Methods -/

/-- `SLH._feedback` as a circuit. In the strict variant of the model (not the code) closing the only channel of a
one-channel triple is an error, as `Feedback.create` (lines 1243-1246) demands for all other circuits. -/
noncomputable def slhFeedback (strict : Bool) (s : SLH A) (o i : Nat) : Res (Circ A) :=
  if strict && s.n ≤ 1 then .error .valueError
  else do
    let t ← SLH.feedback s o i
    .ok (.slh t)

/-- `Concatenation.feedback`/`_feedback` calls `feedback` on an operand; `Circuit.feedback` (lines 178-198) dispatches to
`_feedback`, which is overridden in `SLH` and `CPermutation` and else calls `Feedback.create`. `concatFb` is the override for
`Concatenation`. -/
noncomputable def feedbackMethodWith (strict : Bool) (R : Ops A) (concatFb : List (Circ A) → Nat → Nat → Res (Circ A)) (c : Circ A)
    (o i : Nat) : Res (Circ A) :=
  match c with
  | .slh s => slhFeedback strict s o i
  | .perm p => do
    let r ← CPerm.feedback p o i
    .ok (ofPC r)
  | .concat ops => concatFb ops o i
  | c => R.feedback c o i

/-- `Concatenation._feedback`, lines 1165-1200. A nested concatenation as the last operand or as a block is delegated
to `Feedback.create` (it has at least two channels or the call fails in both cases). -/
noncomputable def concatFeedback (strict : Bool) (R : Ops A) (ops : List (Circ A)) (o i : Nat) : Res (Circ A) := do
  let self : Circ A := .concat ops
  let n := self.cdim
  let fbM := feedbackMethodWith strict R (fun l o i => R.feedback (.concat l) o i)
  if o = n - 1 ∧ i = n - 1 then
    match ops.getLast? with
    | none => .error .indexError
    | some last => do
      let l ← fbM last (last.cdim - 1) (last.cdim - 1)
      R.concat (ops.dropLast ++ [l])
  else do
    let (inIdx, inBlock) ← indexInBlock self i
    let (outIdx, outBlock) ← indexInBlock self o
    let blocks ← ownBlocks R self
    if inBlock = outBlock then do
      let before ← R.concat (blocks.take outBlock)
      let blk ← match blocks[outBlock]? with
        | some b => fbM b outIdx inIdx
        | none => .error .indexError
      let x ← R.concat [before, blk]
      let after ← R.concat (blocks.drop (outBlock + 1))
      R.concat [x, after]
    else if inBlock < outBlock then do
      let b1 ← R.concat (blocks.take outBlock)
      let b2 ← R.concat (blocks.drop outBlock)
      let l ← R.concat [b1, cid (b2.cdim - 1)]
      let m ← mapChannels [(o - 1, i)] (n - 1)
      let r ← R.concat [cid (b1.cdim - 1), b2]
      let x ← R.series [l, ofPC m]
      R.series [x, r]
    else do
      let b1 ← R.concat (blocks.take inBlock)
      let b2 ← R.concat (blocks.drop inBlock)
      let l ← R.concat [cid (b1.cdim - 1), b2]
      let m ← mapChannels [(o, i - 1)] (n - 1)
      let r ← R.concat [b1, cid (b2.cdim - 1)]
      let x ← R.series [l, ofPC m]
      R.series [x, r]

/-- `Circuit.feedback`, lines 178-201. -/
noncomputable def feedbackMethod (strict : Bool) (R : Ops A) : Circ A → Nat → Nat → Res (Circ A) :=
  feedbackMethodWith strict R (concatFeedback strict R)

/-- `CPermutation._factorize_for_rhs`, lines 868-911. -/
def factorizeForRhs (R : Ops A) (p : List Nat) (rhs : Circ A) : Res (Circ A × Circ A × Circ A) := do
  let st ← blockStructure rhs
  let (bp, ws) ← blockPermAndWithin p st
  let f ← fullBlockPerm bp st
  if sorted f ≠ List.range p.length then .error .badPermutation
  else do
    let newRhs ← create f
    let within ← createPerms (A := A) ws
    let withinCircuit ← R.concat within
    let rhsBlocks ← getBlocks R rhs st
    let bpInv ← invert bp
    let summands ← bpInv.mapM (fun k => do
      let w ← getItem within k
      let b ← getItem rhsBlocks k
      R.series [w, b])
    let permuted ← R.concat summands
    let wInv ← R.inverse withinCircuit
    let x ← R.series [.perm p, wInv]
    let rInv ← R.inverse (ofPC newRhs)
    let newLhs ← R.series [x, rInv]
    .ok (newLhs, permuted, ofPC newRhs)

/-! ### Rules for `SeriesProduct` -/

/-- `_tensor_decompose_series`, `_rules.py` lines 867-888. `none` is `CannotSimplify`. -/
def tensorDecompose (R : Ops A) (lhs rhs : Circ A) : Res (Option (Circ A)) :=
  match rhs with
  | .perm _ => .ok none
  | _ => do
    let l ← blockStructure lhs
    let r ← blockStructure rhs
    let st ← commonStructure (l.length + r.length + 1) l r
    if st.length > 1 then do
      let bl ← getBlocks R lhs st
      let br ← getBlocks R rhs st
      let cs ← (bl.zip br).mapM (fun (a, b) => R.series [a, b])
      let c ← R.concat cs
      .ok (some c)
    else .ok none

/-- `_factor_permutation_for_blocks`, `_rules.py` lines 891-910. -/
noncomputable def factorPermutation (R : Ops A) (p : List Nat) (rhs : Circ A) : Res (Option (Circ A)) := do
  let rbs ← blockStructure rhs
  if isCid rhs then .ok (some (.perm p))
  else if rbs.length > 1 then do
    let (res, tr, carried) ← factorizeForRhs R p rhs
    if beq res (.perm p) then .ok none
    else do
      let c ← R.series [res, tr, carried]
      .ok (some c)
  else .ok none

/-- Rules R005 and R006 of `SeriesProduct`, `_rules.py` lines 1046-1051: `A << SeriesInverse(A)` and
`SeriesInverse(A) << A`; the repeated wildcard is compared with `==`. -/
noncomputable def seriesInverseRules (a b : Circ A) : Option (Circ A) :=
  match b with
  | .inv x => if beq a x then some (cid a.cdim) else
    match a with
    | .inv y => if beq y b then some (cid y.cdim) else none
    | _ => none
  | _ =>
    match a with
    | .inv y => if beq y b then some (cid y.cdim) else none
    | _ => none

/-- The binary rules of `SeriesProduct` in order, `_rules.py` lines 1033-1052. -/
noncomputable def seriesRule (R : Ops A) (a b : Circ A) : Res (Option (Circ A)) := do
  let first ← (match a, b with
    | .perm p, .perm q => do
      let c ← seriesWithPermutation p q
      .ok (some (ofPC c))
    | .slh s, .slh t => if s.n ≠ t.n then .error .valueError else .ok (some (.slh (SLH.series s t)))
    | _, _ => .ok none : Res (Option (Circ A)))
  match first with
  | some c => .ok (some c)
  | none => do
    match ← tensorDecompose R a b with
    | some c => .ok (some c)
    | none => do
      let fourth ← (match a with
        | .perm p => factorPermutation R p b
        | _ => .ok none : Res (Option (Circ A)))
      match fourth with
      | some c => .ok (some c)
      | none => .ok (seriesInverseRules a b)

/-! ### Rules for `Concatenation` -/

/-- `pattern(SeriesProduct, A__, B)` with `B` a `CPermutation`: the operands before a final permutation. -/
def splitPerm : Circ A → Option (List (Circ A) × List Nat)
  | .series ops =>
    match ops.getLast? with
    | some (.perm p) => if ops.dropLast = [] then none else some (ops.dropLast, p)
    | _ => none
  | _ => none

/-- The binary rules of `Concatenation` in order, `_rules.py` lines 1054-1084. -/
def concatRule (R : Ops A) (a b : Circ A) : Res (Option (Circ A)) :=
  let perm (l : List Nat) : Res (Option (Circ A)) := do
    let c ← create l
    .ok (some (ofPC c))
  match a, b with
  | .slh s, .slh t => .ok (some (.slh (SLH.concat s t)))
  | .perm p, .perm q => perm (concatenate p q)
  | .perm p, .id1 => perm (concatenate p [0])
  | .id1, .perm q => perm (concatenate [0] q)
  | a, b =>
    match splitPerm a, splitPerm b with
    | some (as, p), some (bs, q) => do
      let x ← R.series as
      let y ← R.series bs
      let l ← R.concat [x, y]
      let r ← R.concat [.perm p, .perm q]
      let c ← R.series [l, r]
      .ok (some c)
    | some (as, p), none => do
      let x ← R.series as
      let l ← R.concat [x, b]
      let r ← R.concat [.perm p, cid b.cdim]
      let c ← R.series [l, r]
      .ok (some c)
    | none, some (bs, q) => do
      let y ← R.series bs
      let l ← R.concat [a, y]
      let r ← R.concat [cid a.cdim, .perm q]
      let c ← R.series [l, r]
      .ok (some c)
    | none, none => .ok none

/-! ### Rules for `Feedback` -/

/-- `_series_feedback` (rule R001), `_rules.py` lines 996-1003. -/
noncomputable def seriesFeedback (strict : Bool) (R : Ops A) (c : Circ A) (o i : Nat) : Res (Option (Circ A)) := do
  let a ← R.inverse c
  let b ← R.inverse a
  if beq b c then .ok none
  else do
    let r ← feedbackMethod strict R b o i
    .ok (some r)

/-- `_pull_out_perm_lhs` (rule R002), `_rules.py` lines 913-927. -/
def pullOutPermLhs (R : Ops A) (p : List Nat) (rest : List (Circ A)) (o i : Nat) : Res (Option (Circ A)) := do
  let (outInv, red) ← factorLhs p o
  let s ← R.series rest
  let f ← R.feedback s outInv i
  let c ← R.series [ofPC red, f]
  .ok (some c)

/-- The three blocks `before`, `block`, `after` of `_pull_out_unaffected_blocks_lhs/rhs` (lines 944-951, 976-983), with their sizes. -/
def threeBlocks (R : Ops A) (c : Circ A) (port : Nat) : Res (Circ A × Circ A × Circ A × Nat × Nat × Nat) := do
  let (_, k) ← indexInBlock c port
  let st ← blockStructure c
  let nblock ← getItem st k
  let nbefore := (st.take k).sum
  let nafter := (st.drop (k + 1)).sum
  let bs ← getBlocks R c [nbefore, nblock, nafter]
  match bs with
  | [b, m, a] => .ok (b, m, a, nbefore, nblock, nafter)
  | _ => .error .valueError

/-- `x + y + z` -/
def concat3 (R : Ops A) (x y z : Circ A) : Res (Circ A) := do
  let xy ← R.concat [x, y]
  R.concat [xy, z]

/-- `_pull_out_unaffected_blocks_lhs` (rule R003), `_rules.py` lines 930-962. -/
noncomputable def pullOutBlocksLhs (R : Ops A) (lhs : Circ A) (rest : List (Circ A)) (o i : Nat) : Res (Option (Circ A)) := do
  let (before, block, after, nb, nm, na) ← threeBlocks R lhs o
  if !(beq before (cid nb)) || !(beq after (cid na)) then do
    let outer ← concat3 R before (cid (nm - 1)) after
    let inner ← concat3 R (cid nb) block (cid na)
    let s ← R.series (inner :: rest)
    let f ← R.feedback s o i
    let c ← R.series [outer, f]
    .ok (some c)
  else if beq block (cid nm) then do
    let outer ← concat3 R before (cid (nm - 1)) after
    let s ← R.series rest
    let f ← R.feedback s o i
    let c ← R.series [outer, f]
    .ok (some c)
  else .ok none

/-- `_pull_out_perm_rhs` (rule R004), `_rules.py` lines 965-971. -/
def pullOutPermRhs (R : Ops A) (rest : List (Circ A)) (p : List Nat) (o i : Nat) : Res (Option (Circ A)) := do
  let (inIm, red) ← factorRhs p i
  let s ← R.series rest
  let f ← R.feedback s o inIm
  let c ← R.series [f, ofPC red]
  .ok (some c)

/-- `_pull_out_unaffected_blocks_rhs` (rule R005), `_rules.py` lines 974-993. -/
noncomputable def pullOutBlocksRhs (R : Ops A) (rest : List (Circ A)) (rhs : Circ A) (o i : Nat) : Res (Option (Circ A)) := do
  let (before, block, after, nb, nm, na) ← threeBlocks R rhs i
  if !(beq before (cid nb)) || !(beq after (cid na)) then do
    let outer ← concat3 R before (cid (nm - 1)) after
    let inner ← concat3 R (cid nb) block (cid na)
    let s ← R.series (rest ++ [inner])
    let f ← R.feedback s o i
    let c ← R.series [f, outer]
    .ok (some c)
  else if beq block (cid nm) then do
    let outer ← concat3 R before (cid (nm - 1)) after
    let s ← R.series rest
    let f ← R.feedback s o i
    let c ← R.series [f, outer]
    .ok (some c)
  else .ok none

/-- Rules R002-R003 of `Feedback` (`_rules.py` lines 1091-1100): the left-most operand is a `CPermutation` or a `Concatenation`,
followed by at least one operand. -/
noncomputable def feedbackLhsRules (R : Ops A) (ops : List (Circ A)) (o i : Nat) : Res (Option (Circ A)) :=
  match ops with
  | .perm p :: r :: rest => pullOutPermLhs R p (r :: rest) o i
  | .concat l :: r :: rest => pullOutBlocksLhs R (.concat l) (r :: rest) o i
  | _ => .ok none

/-- Rules R004-R005 of `Feedback` (`_rules.py` lines 1101-1110): the same for the right-most operand. -/
noncomputable def feedbackRhsRules (R : Ops A) (ops : List (Circ A)) (o i : Nat) : Res (Option (Circ A)) :=
  if ops.dropLast = [] then .ok none
  else
    match ops.getLast? with
    | some (.perm p) => pullOutPermRhs R ops.dropLast p o i
    | some (.concat l) => pullOutBlocksRhs R ops.dropLast (.concat l) o i
    | _ => .ok none

/-- The rules of `Feedback` in order, `_rules.py` lines 1086-1111, applied by `match_replace`
(algebraic_properties.py lines 250-320). -/
noncomputable def feedbackRules (strict : Bool) (R : Ops A) (c : Circ A) (o i : Nat) : Res (Option (Circ A)) :=
  match c with
  | .series ops => do
    match ← seriesFeedback strict R c o i with
    | some r => .ok (some r)
    | none => do
      match ← feedbackLhsRules R ops o i with
      | some r => .ok (some r)
      | none => feedbackRhsRules R ops o i
  | _ => .ok none

/-! ### The `create` methods -/

/-- the operands of a `SeriesProduct` -/
def flatSeries : Circ A → Option (List (Circ A))
  | .series l => some l
  | _ => none

/-- the operands of a `Concatenation` -/
def flatConcat : Circ A → Option (List (Circ A))
  | .concat l => some l
  | _ => none

/-- `r == CIdentity` -/
def isId1 : Circ A → Bool
  | .id1 => true
  | _ => false

/-- `r == CircuitZero` -/
def isZero : Circ A → Bool
  | .zero => true
  | _ => false

/-- `SeriesProduct.create`: `simplifications = [assoc, filter_cid, check_cdims, match_replace_binary]`, lines 1080-1081;
`filter_cid` (algebraic_properties.py lines 431-448) has the form of `filter_neutral` with `CircuitZero` as the result for no operands;
`check_cdims` lines 424-428. -/
noncomputable def seriesCreate (R : Ops A) (fuel : Nat) (ops : List (Circ A)) : Res (Circ A) :=
  match Engine.filterNeutral .zero isCid (Engine.assoc flatSeries ops) with
  | .single c => .ok c
  | .operands l =>
    if l.all (fun c => c.cdim == headCdim l) then
      match Engine.matchReplaceBinary (seriesRule R) .id1 isId1 flatSeries fuel l with
      | .error e => .error e
      | .ok (.single c) => .ok c
      | .ok (.operands l') => .ok (.series l')
    else .error .valueError

/-- `Concatenation.create`: `simplifications = [assoc, filter_neutral, match_replace_binary]`, line 1108. -/
def concatCreate (R : Ops A) (fuel : Nat) (ops : List (Circ A)) : Res (Circ A) :=
  match Engine.createAssoc (concatRule R) .zero isZero flatConcat fuel ops with
  | .error e => .error e
  | .ok (.single c) => .ok c
  | .ok (.operands l) => .ok (.concat l)

/-- `Feedback.create`, lines 1238-1252. -/
noncomputable def feedbackCreate (strict : Bool) (R : Ops A) (c : Circ A) (o i : Nat) : Res (Circ A) :=
  if c.cdim ≤ 1 then .error .valueError
  else
    match c with
    | .concat ops => concatFeedback strict R ops o i
    | .slh s => slhFeedback strict s o i
    | .perm p => do
      let r ← CPerm.feedback p o i
      .ok (ofPC r)
    | c => do
      match ← feedbackRules strict R c o i with
      | some r => .ok r
      | none => .ok (.fb c o i)

/-- `Circuit.series_inverse` with the overrides of `_series_inverse`: lines 160-173, 438-439, 836-837, 1045-1046, 1100-1102,
1161-1163, 1261-1263, and `SeriesInverse.create`, lines 1291-1297. -/
def inverseCreate (R : Ops A) : Circ A → Res (Circ A)
  | .slh s => .ok (.slh (SLH.inverse s))
  | .perm p => do
    let q ← invert p
    .ok (.perm q)
  | .id1 => .ok .id1
  | .series ops => do
    let fs ← ops.reverse.mapM R.inverse
    R.series fs
  | .concat ops => do
    let fs ← ops.mapM R.inverse
    R.concat fs
  | .fb c o i => do
    let d ← R.inverse c
    R.feedback d i o
  | .inv c => .ok c
  | .sym a n => .ok (.inv (.sym a n))
  | .zero => .ok (.inv .zero)

/-- The entry points at recursion depth `fuel`. -/
noncomputable def opsAt (strict : Bool) : Nat → Ops A
  | 0 => ⟨fun _ => .error .recursion, fun _ => .error .recursion, fun _ _ _ => .error .recursion, fun _ => .error .recursion⟩
  | f + 1 => ⟨seriesCreate (opsAt strict f) f, concatCreate (opsAt strict f) f, feedbackCreate strict (opsAt strict f), inverseCreate (opsAt strict f)⟩

/-! ### User expressions -/

/-- What a user writes: symbols, SLH triples, permutations, identities, `<<`, `+`, `.feedback(out_port=, in_port=)`,
`.series_inverse()`. -/
inductive Expr (A : Type) [Zero A] where
  | sym (name cdim : Nat)
  | slh (s : SLH A)
  | cperm (p : List Nat)
  | cid (n : Nat)
  | series (a b : Expr A)
  | concat (a b : Expr A)
  | feedback (a : Expr A) (out inp : Nat)
  | inverse (a : Expr A)

/-- Evaluation of a user expression by Python: `Circuit.__lshift__`, `__add__` (lines 295-303), `feedback` (178-201),
`series_inverse` (160-173), `CPermutation.create` (781-788), `circuit_identity` (1325-1338), with recursion limit `fuel`. -/
noncomputable def simplify (strict : Bool) (fuel : Nat) : Expr A → Res (Circ A)
  | .sym a n => .ok (.sym a n)
  | .slh s => .ok (.slh s)
  | .cperm p => do
    let c ← create p
    .ok (ofPC c)
  | .cid n => .ok (cid n)
  | .series a b => do
    let x ← simplify strict fuel a
    let y ← simplify strict fuel b
    (opsAt strict fuel).series [x, y]
  | .concat a b => do
    let x ← simplify strict fuel a
    let y ← simplify strict fuel b
    (opsAt strict fuel).concat [x, y]
  | .feedback a o i => do
    let x ← simplify strict fuel a
    feedbackMethod strict (opsAt strict fuel) x o i
  | .inverse a => do
    let x ← simplify strict fuel a
    (opsAt strict fuel).inverse x

end QNET.Circuit
