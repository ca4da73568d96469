import Verif.Perm.Model

/-!
# Specification vocabulary for permutations

Stated without any of the functions of the model.
-/

namespace QNET.Perm

/-- `p` is the image tuple of a bijection of `{0, …, n-1}`: each number below `n = len(p)` occurs exactly
once and no other number occurs. -/
def IsBijection (p : List Nat) : Prop := ∀ k, p.count k = if k < p.length then 1 else 0

/-- `c` is a closed sequence of indices `c₀, c₁, …` with `p(c_i) = c_{i+1}` and `p(c_last) = c₀`. -/
def FollowsCycle (p c : List Nat) : Prop :=
  ∀ i (hi : i < c.length), p[c[i]]? = some (c[(i + 1) % c.length]'(Nat.mod_lt _ (by omega)))

/-- `cs` is the normal-form decomposition of `p` into disjoint cycles: non-empty cycles that partition
`{0,…,n-1}` and follow `p`, each starting with its smallest element, in order of those elements. -/
structure IsCycleDecomposition (p : List Nat) (cs : List (List Nat)) : Prop where
  nonempty : ∀ c ∈ cs, c ≠ []
  /-- every index below `n` occurs in the cycles exactly once, and nothing else does -/
  partition : ∀ k, cs.flatten.count k = if k < p.length then 1 else 0
  follows : ∀ c ∈ cs, FollowsCycle p c
  min_first : ∀ c ∈ cs, ∀ x ∈ c, c.headD 0 ≤ x
  ordered : (cs.map (fun c => c.headD 0)).Pairwise (· < ·)

/-- A permutation that can be split after position `k` into two blocks. -/
def SplitsAt (p : List Nat) (k : Nat) : Prop := ∀ i (hi : i < p.length), i < k ↔ p[i] < k

/-- No proper split is possible. -/
def Indecomposable (p : List Nat) : Prop := ∀ k, 0 < k → k < p.length → ¬ SplitsAt p k

/-- Start offset of block `k` for given block sizes. -/
def offsetOf (sizes : List Nat) (k : Nat) : Nat := (sizes.take k).sum


/-- Every block of inputs is mapped onto a contiguous range of outputs. -/
def MapsBlocksContiguously (p s : List Nat) : Prop :=
  ∀ k (_ : k < s.length), ∃ start, ∀ j, j < s[k] → ∃ v, p[offsetOf s k + j]? = some v ∧ start ≤ v ∧ v < start + s[k]

/-- First channel of slot `q` when block `b` (of size `sizes[b]`) sits in slot `bp[b]`: the total size of
the blocks sitting in earlier slots. -/
def slotStart (bp sizes : List Nat) (q : Nat) : Nat :=
  (((bp.zip sizes).filter (fun x => decide (x.1 < q))).map Prod.snd).sum

/-- `m` is the smallest image `p(c)` of the channels `c` in `[start, start + len)`. -/
def IsMinImage (p : List Nat) (start len m : Nat) : Prop :=
  (∃ j, j < len ∧ p[start + j]? = some m) ∧ ∀ j, j < len → ∀ v, p[start + j]? = some v → m ≤ v

end QNET.Perm
