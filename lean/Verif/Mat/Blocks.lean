import Verif.Mat.Model
import Verif.Perm.Spec
import Verif.Util.KernelRfl

/-!
# C61: block structure of matrices
-/

namespace QNET.Mat

open QNET.Perm (Res Err offsetOf)

variable {α : Type}

/-- The `n × n` array `e` is block diagonal with a cut at `k`: every entry with one index before and the other at or after `k`
is zero. -/
def Splits (z : α → Bool) (n : ℕ) (e : ℕ → ℕ → α) (k : ℕ) : Prop :=
  ∀ i j, i < n → j < n → (i < k ∧ k ≤ j) ∨ (k ≤ i ∧ j < k) → z (e i j) = true

theorem allZero_iff (z : α → Bool) (M : Mat α) :
    M.allZero z = true ↔ ∀ i j, i < M.r → j < M.c → z (M.e i j) = true := by
  simp only [Mat.allZero, List.all_eq_true, List.mem_range]
  exact ⟨fun h i j hi hj => h i hi j hj, fun h i hi j hj => h i j hi hj⟩

theorem splitTest_iff (z : α → Bool) {M : Mat α} (hM : M.r = M.c) (k : ℕ) :
    M.splitTest z k = true ↔ Splits z M.r M.e k := by
  simp only [Mat.splitTest, Bool.and_eq_true, allZero_iff, Mat.slice, Splits]
  constructor
  · rintro ⟨h1, h2⟩ i j hi hj (h | h)
    · have := h1 i (j - k) (by omega) (by omega)
      simpa [Nat.add_sub_cancel' h.2] using this
    · have := h2 (i - k) j (by omega) (by omega)
      simpa [Nat.add_sub_cancel' h.1] using this
  · intro h
    exact ⟨fun i j hi hj => by
        simpa using h i (k + j) (by omega) (by omega) (Or.inl (by omega)),
      fun i j hi hj => by simpa using h (k + i) j (by omega) (by omega) (Or.inr (by omega))⟩

theorem splits_zero (z : α → Bool) (n : ℕ) (e : ℕ → ℕ → α) : Splits z n e 0 := fun i j _ _ h => by omega

theorem splits_full (z : α → Bool) (n : ℕ) (e : ℕ → ℕ → α) : Splits z n e n := fun i j _ _ h => by omega

/-- Cuts of the rest of a matrix that has been cut at `a`. -/
theorem splits_shift (z : α → Bool) {n a : ℕ} (e : ℕ → ℕ → α) (hs : Splits z n e a) (k : ℕ) :
    Splits z (n - a) (fun i j => e (a + i) (a + j)) k ↔ Splits z n e (a + k) := by
  constructor
  · intro h i j hi hj hij
    by_cases hia : i < a
    · by_cases hja : j < a
      · omega
      · exact hs i j hi hj (by omega)
    · by_cases hja : j < a
      · exact hs i j hi hj (by omega)
      · have := h (i - a) (j - a) (by omega) (by omega) (by omega)
        simpa [Nat.add_sub_cancel' (not_lt.mp hia), Nat.add_sub_cancel' (not_lt.mp hja)] using this
  · intro h i j hi hj hij
    exact h (a + i) (a + j) (by omega) (by omega) (by omega)

theorem offsetOf_cons (a : ℕ) (l : List ℕ) (k : ℕ) : offsetOf (a :: l) (k + 1) = a + offsetOf l k := by
  simp [offsetOf]

theorem offsetOf_zero (l : List ℕ) : offsetOf l 0 = 0 := by simp [offsetOf]

/-- C61 (block structure): for a non-empty square matrix `block_structure` returns positive sizes that add up to the dimension
and whose partial sums are *exactly* the positions at which the matrix splits: the matrix is block diagonal with these blocks,
and none of the blocks can be split further. (`z` is the comparison `entry == 0`.) -/
theorem C61_block_structure_partial (z : α → Bool) (M : Mat α) (hM : M.r = M.c) (hn : 0 < M.r) :
    ∃ bs, blockStructure z M = .ok bs ∧ (∀ b ∈ bs, 0 < b) ∧ bs.sum = M.r ∧
      ∀ k, k ≤ M.r → (Splits z M.r M.e k ↔ ∃ j ≤ bs.length, offsetOf bs j = k) := by
  induction hm : M.r using Nat.strong_induction_on generalizing M with
  | _ m ih =>
    subst hm
    rw [blockStructure, if_neg (by simpa using hM)]
    split
    · rename_i k hk
      have hmem := List.mem_of_find?_eq_some hk
      simp only [List.mem_range'_1] at hmem
      have hs := (splitTest_iff z hM k).mp (List.find?_some hk)
      obtain ⟨bs, h1, h2, h3, h4⟩ := ih _ (by simp only [Mat.slice]; omega) (M.slice k M.r k M.c)
        (by simp only [Mat.slice]; omega) (by simp only [Mat.slice]; omega) rfl
      have hr : (M.slice k M.r k M.c).r = M.r - k := by simp [Mat.slice]
      rw [hr] at h3 h4
      refine ⟨k :: bs, by rw [h1]; rfl, ?_, by rw [List.sum_cons, h3]; omega, ?_⟩
      · intro b hb
        rcases List.mem_cons.mp hb with rfl | hb
        · omega
        · exact h2 b hb
      · intro l hl
        constructor
        · intro hsl
          rcases Nat.eq_zero_or_pos l with rfl | hl0
          · exact ⟨0, by omega, offsetOf_zero _⟩
          · have hkl : k ≤ l := by
              by_contra hlt
              rw [List.find?_eq_some_iff_getElem] at hk
              obtain ⟨-, i, hi, hik, hbefore⟩ := hk
              simp only [List.length_range'] at hi
              simp only [List.getElem_range', one_mul] at hik
              have := hbefore (l - 1) (by omega)
              simp only [List.getElem_range', one_mul] at this
              rw [show 1 + (l - 1) = l by omega] at this
              simp [(splitTest_iff z hM l).mpr hsl] at this
            have := (splits_shift z M.e hs (l - k)).mpr (by rwa [Nat.add_sub_cancel' hkl])
            obtain ⟨j, hj, hjo⟩ := (h4 (l - k) (by omega)).mp this
            exact ⟨j + 1, by simp; omega, by rw [offsetOf_cons, hjo]; omega⟩
        · rintro ⟨j, hj, rfl⟩
          cases j with
          | zero => rw [offsetOf_zero]; exact splits_zero _ _ _
          | succ j =>
            rw [offsetOf_cons] at hl ⊢
            exact (splits_shift z M.e hs _).mp ((h4 _ (by omega)).mpr ⟨j, by simpa using hj, rfl⟩)
    · rename_i hk
      refine ⟨[M.r], rfl, by simpa using hn, by simp, ?_⟩
      intro l hl
      constructor
      · intro hsl
        rcases Nat.eq_zero_or_pos l with rfl | hl0
        · exact ⟨0, by omega, offsetOf_zero _⟩
        · rcases Nat.lt_or_ge l M.r with hlt | hge
          · have := List.find?_eq_none.mp hk l (by simp only [List.mem_range'_1]; omega)
            exact absurd ((splitTest_iff z hM l).mpr hsl) this
          · exact ⟨1, by simp, by simp [offsetOf]; omega⟩
      · rintro ⟨j, hj, rfl⟩
        have : j = 0 ∨ j = 1 := by simp at hj; omega
        rcases this with rfl | rfl
        · rw [offsetOf_zero]; exact splits_zero _ _ _
        · simp only [offsetOf, List.take_succ_cons, List.take_zero, List.sum_cons, List.sum_nil, add_zero]
          exact splits_full _ _ _

/-- C61: for a matrix that is not square, `block_structure` raises `AttributeError`. -/
theorem C61_block_structure_nonsquare (z : α → Bool) (M : Mat α) (hM : M.r ≠ M.c) :
    blockStructure z M = .error .attributeError := by
  rw [blockStructure, if_pos hM]

/-- The matrices `l` are the diagonal blocks of `M` of sizes `bs`, in order. -/
def AreBlocks (M : Mat α) (bs : List ℕ) (l : List (Mat α)) : Prop :=
  l.length = bs.length ∧ ∀ (k : ℕ) (b : ℕ) (B : Mat α), bs[k]? = some b → l[k]? = some B →
    B.r = b ∧ B.c = b ∧ ∀ i j, i < b → j < b → B.e i j = M.e (offsetOf bs k + i) (offsetOf bs k + j)

/-- C61 (blocks): for a square matrix `_get_blocks(bs)` succeeds exactly if the sizes add up to the dimension and the matrix is
block diagonal with these sizes; it then returns the diagonal blocks in order, and otherwise it raises `ValueError`. -/
theorem C61_get_blocks_partial (z : α → Bool) (M : Mat α) (hM : M.r = M.c) (bs : List ℕ) :
    (bs.sum = M.r ∧ (∀ k ≤ bs.length, Splits z M.r M.e (offsetOf bs k)) →
      ∃ l, getBlocks z M bs = .ok l ∧ AreBlocks M bs l) ∧
    (¬ (bs.sum = M.r ∧ ∀ k ≤ bs.length, Splits z M.r M.e (offsetOf bs k)) → getBlocks z M bs = .error .valueError) := by
  induction bs generalizing M with
  | nil =>
    constructor
    · rintro ⟨h1, h2⟩
      refine ⟨[], by rw [getBlocks, if_pos hM, if_neg (by simpa using h1)], ?_⟩
      exact ⟨rfl, by simp⟩
    · intro h
      rw [getBlocks, if_pos hM]
      by_cases h0 : ([] : List ℕ).sum = M.r
      · exact absurd ⟨h0, fun k hk => by
          simp at hk; subst hk; rw [offsetOf_zero]; exact splits_zero _ _ _⟩ h
      · rw [if_pos h0]
  | cons b rest ih =>
    rw [getBlocks, if_pos hM]
    by_cases hsum : (b :: rest).sum = M.r
    · rw [if_neg (by simpa using hsum)]
      have hb : b ≤ M.r := by simp at hsum; omega
      have hr : (M.slice b M.r b M.c).r = M.r - b := by simp [Mat.slice]
      have hc : (M.slice b M.r b M.c).c = M.c - b := by simp [Mat.slice]
      have he : (M.slice b M.r b M.c).e = fun i j => M.e (b + i) (b + j) := rfl
      have ih' := ih (M.slice b M.r b M.c) (by rw [hr, hc, hM])
      rw [hr, he] at ih'
      have hsum' : rest.sum = M.r - b := by simp at hsum; omega
      by_cases hs : Splits z M.r M.e b
      · simp only [(splitTest_iff z hM b).mpr hs, if_true]
        have hiff : (∀ k ≤ (b :: rest).length, Splits z M.r M.e (offsetOf (b :: rest) k)) ↔
            ∀ k ≤ rest.length, Splits z (M.r - b) (fun i j => M.e (b + i) (b + j)) (offsetOf rest k) := by
          constructor
          · intro h k hk
            rw [splits_shift z M.e hs, ← offsetOf_cons]
            exact h (k + 1) (by simpa using hk)
          · intro h k hk
            cases k with
            | zero => rw [offsetOf_zero]; exact splits_zero _ _ _
            | succ k =>
              rw [offsetOf_cons, ← splits_shift z M.e hs]
              exact h k (by simpa using hk)
        constructor
        · rintro ⟨-, h⟩
          obtain ⟨l, hl, hl1, hl2⟩ := ih'.1 ⟨hsum', hiff.mp h⟩
          refine ⟨_, by rw [hl]; rfl, by simp [hl1], ?_⟩
          intro k c B hk hB
          cases k with
          | zero =>
            simp only [List.getElem?_cons_zero, Option.some.injEq] at hk hB
            subst hk hB
            rw [offsetOf_zero]
            exact ⟨by simp [Mat.slice]; omega, by simp [Mat.slice]; omega, fun i j _ _ => by simp [Mat.slice]⟩
          | succ k =>
            simp only [List.getElem?_cons_succ] at hk hB
            obtain ⟨q1, q2, q3⟩ := hl2 k c B hk hB
            refine ⟨q1, q2, fun i j hi hj => ?_⟩
            rw [q3 i j hi hj, offsetOf_cons]
            simp only [he, add_assoc]
        · intro h
          have := ih'.2 (fun h' => h ⟨hsum, hiff.mpr h'.2⟩)
          rw [this]; rfl
      · have hf : M.splitTest z b = false := Bool.eq_false_iff.mpr fun h => hs ((splitTest_iff z hM b).mp h)
        simp only [hf, Bool.false_eq_true, if_false]
        constructor
        · rintro ⟨-, h⟩
          have := h 1 (by simp)
          rw [show (1 : ℕ) = 0 + 1 from rfl, offsetOf_cons, offsetOf_zero] at this
          exact absurd this hs
        · intro _; trivial
    · rw [if_pos hsum]
      exact ⟨fun h => absurd h.1 hsum, fun _ => rfl⟩

/-- Both calls work together: a non-empty square matrix has blocks for its own block structure. -/
theorem C61_own_blocks_partial (z : α → Bool) (M : Mat α) (hM : M.r = M.c) (hn : 0 < M.r) :
    ∃ bs l, blockStructure z M = .ok bs ∧ getBlocks z M bs = .ok l ∧ AreBlocks M bs l := by
  obtain ⟨bs, h1, -, h3, h4⟩ := C61_block_structure_partial z M hM hn
  have hle : ∀ k, offsetOf bs k ≤ M.r := by
    intro k
    have := List.sum_take_add_sum_drop bs k
    simp only [offsetOf]
    omega
  obtain ⟨l, h5, h6⟩ := (C61_get_blocks_partial z M hM bs).1 ⟨h3, fun k hk => (h4 _ (hle k)).mpr ⟨k, hk, rfl⟩⟩
  exact ⟨bs, l, h1, h5, h6⟩

/-! ### Examples and refutations -/

/-- the matrix with rows `l` -/
def ofRows (r c : ℕ) (l : List (List α)) (d : α) : Mat α := ⟨r, c, fun i j => (l.getD i []).getD j d⟩

/-- a matrix with block structure (2, 1, 3), as in the test suite -/
def exM : Mat ℤ :=
  ofRows 6 6 [[1, 2, 0, 0, 0, 0], [3, 4, 0, 0, 0, 0], [0, 0, 5, 0, 0, 0], [0, 0, 0, 0, 6, 0], [0, 0, 0, 0, 0, 7], [0, 0, 0, 8, 0, 0]] 0

example : blockStructure (· == 0) exM = .ok [2, 1, 3] := by kernel_rfl
example : (getBlocks (· == 0) exM [3, 3]).toOption.isSome = true := by kernel_rfl
example : (getBlocks (· == 0) exM [1, 5]).toOption.isSome = false := by kernel_rfl
example : blockStructure (· == 0) (ofRows 2 3 [[1, 2, 3], [4, 5, 6]] (0 : ℤ)) = .error .attributeError := by kernel_rfl

/-- C61 refuted (zero operators): a matrix of `ZeroOperator`s is a zero matrix according to `is_zero`, but its block structure is
`(n,)` as if it were indecomposable, because `ZeroOperator == 0` is false. -/
theorem C61_zero_operator_refuted :
    ∃ M : Mat Entry, isZero Entry.isZero M = true ∧ M.r = M.c ∧
      blockStructure Entry.eqZero M = .ok [2] ∧ getBlocks Entry.eqZero M [1, 1] = .error .valueError :=
  ⟨⟨2, 2, fun _ _ => .zeroOp⟩, by kernel_rfl, rfl, by kernel_rfl, by kernel_rfl⟩

/-- the column (10, 20, 30, 40, 50) -/
def exCol : Mat ℤ := ofRows 5 1 [[10], [20], [30], [40], [50]] 0

/-- C61 refuted (column vectors): the blocks of sizes 3 and 2 of a column of five entries are the rows 0-2 and 0-1 (instead of 3-4);
sizes 2 and 3 give the rows 0-1 twice; sizes that do not add up are accepted, and sizes 4 and 1 raise `ValueError`. -/
theorem C61_column_refuted :
    (getBlocks (· == 0) exCol [3, 2]).toOption.map (·.map ravel) = some [[10, 20, 30], [10, 20]] ∧
    (getBlocks (· == 0) exCol [2, 3]).toOption.map (·.map ravel) = some [[10, 20], [10, 20]] ∧
    (getBlocks (· == 0) exCol [2]).toOption.map (·.map ravel) = some [[10, 20]] ∧
    getBlocks (· == 0) exCol [4, 1] = .error .valueError :=
  ⟨by kernel_rfl, by kernel_rfl, by kernel_rfl, by kernel_rfl⟩

end QNET.Mat
