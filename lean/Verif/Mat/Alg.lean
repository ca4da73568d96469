import Mathlib.LinearAlgebra.Matrix.Trace
import Mathlib.Tactic.Convert
import Mathlib.LinearAlgebra.Matrix.ConjTranspose
import Mathlib.Data.Matrix.Mul
import Mathlib.Data.Matrix.Block
import Mathlib.Algebra.BigOperators.Fin
import Verif.Mat.Blocks
import Verif.Perm.Thm

/-!
# C62: matrix algebra; C63: element-wise operations, permutation matrices

The results are compared with Mathlib's matrices.
-/

namespace QNET.Mat

open QNET.Perm (Res Err IsBijection)
open Finset

variable {A : Type}

/-- The `Matrix` object `M` has the shape and the entries of the mathematical matrix `m`. -/
def Rep {a b : ℕ} (M : Mat A) (m : Matrix (Fin a) (Fin b) A) : Prop :=
  M.r = a ∧ M.c = b ∧ ∀ (i : Fin a) (j : Fin b), M.e i j = m i j

/-- The call returned a matrix object representing `m`. -/
def Returns {a b : ℕ} (x : Res (Mat A)) (m : Matrix (Fin a) (Fin b) A) : Prop := ∃ P, x = .ok P ∧ Rep P m

/-- Every matrix object represents exactly one mathematical matrix. -/
theorem rep_self (M : Mat A) : Rep M (Matrix.of fun (i : Fin M.r) (j : Fin M.c) => M.e i j) :=
  ⟨rfl, rfl, fun _ _ => rfl⟩

theorem rep_unique {a b : ℕ} {M : Mat A} {m m' : Matrix (Fin a) (Fin b) A} (h : Rep M m) (h' : Rep M m') : m = m' := by
  ext i j; rw [← h.2.2, ← h'.2.2]

section ring

variable [Ring A]

/-- C62: the product of matrices of fitting shapes is the matrix product, with the order of the (non-commuting) entries kept;
otherwise `ValueError`. -/
theorem C62_mul {a b b' c : ℕ} {M N : Mat A} {m : Matrix (Fin a) (Fin b) A} {n : Matrix (Fin b') (Fin c) A} (hM : Rep M m)
    (hN : Rep N n) :
    (∀ h : b = b', Returns (dot M N) (m * n.submatrix (Fin.cast h) id)) ∧ (b ≠ b' → dot M N = .error .valueError) := by
  obtain ⟨rfl, rfl, hm⟩ := hM
  obtain ⟨rfl, rfl, hn⟩ := hN
  constructor
  · intro h
    refine ⟨⟨M.r, N.c, fun i j => ∑ k ∈ range M.c, M.e i k * N.e k j⟩, by rw [dot, if_neg (by simpa using h)], rfl, rfl, ?_⟩
    intro i j
    simp only [Matrix.mul_apply, Matrix.submatrix_apply, id]
    rw [Finset.sum_range]
    refine Finset.sum_congr rfl fun k _ => ?_
    rw [← hm, ← hn]; rfl
  · intro h
    rw [dot, if_pos h]

/-- C62: products are associative. -/
theorem C62_mul_assoc {M N P : Mat A} (h1 : M.c = N.r) (h2 : N.c = P.r) :
    (dot M N >>= fun x => dot x P) = (dot N P >>= fun x => dot M x) ∧ (dot M N >>= fun x => dot x P).toOption.isSome := by
  have e1 : dot M N = .ok ⟨M.r, N.c, fun i j => ∑ k ∈ range M.c, M.e i k * N.e k j⟩ := by rw [dot, if_neg (by simpa using h1)]
  have e2 : dot N P = .ok ⟨N.r, P.c, fun i j => ∑ k ∈ range N.c, N.e i k * P.e k j⟩ := by rw [dot, if_neg (by simpa using h2)]
  rw [e1, e2]
  have key : (dot (⟨M.r, N.c, fun i j => ∑ k ∈ range M.c, M.e i k * N.e k j⟩ : Mat A) P) =
      dot M ⟨N.r, P.c, fun i j => ∑ k ∈ range N.c, N.e i k * P.e k j⟩ := by
    rw [dot, dot, if_neg (by simpa using h2), if_neg (by simpa using h1)]
    congr 2
    funext i j
    simp only [Finset.sum_mul, Finset.mul_sum]
    rw [Finset.sum_comm]
    exact Finset.sum_congr rfl fun _ _ => Finset.sum_congr rfl fun _ _ => mul_assoc _ _ _
  refine ⟨key, ?_⟩
  show (dot (⟨M.r, N.c, _⟩ : Mat A) P).toOption.isSome
  rw [dot, if_neg (by simpa using h2)]
  rfl

/-- C62: the sum of two matrices of the same shape is the entry-wise sum, the difference the entry-wise difference. -/
theorem C62_add_sub {a b : ℕ} {M N : Mat A} {m n : Matrix (Fin a) (Fin b) A} (hM : Rep M m) (hN : Rep N n) :
    Returns (add M N) (m + n) ∧ Returns (sub M N) (m - n) ∧ Rep (neg M) (-m) := by
  obtain ⟨rfl, rfl, hm⟩ := hM
  obtain ⟨h1, h2, hn⟩ := hN
  refine ⟨⟨⟨M.r, M.c, fun i j => M.e i j + N.e i j⟩, by simp [add, bdim, h1, h2, Bind.bind, Except.bind], rfl, rfl, fun i j => ?_⟩,
    ⟨⟨M.r, M.c, fun i j => M.e i j + -1 * N.e i j⟩, by simp [sub, scalarMul, add, bdim, h1, h2, Bind.bind, Except.bind], rfl, rfl,
      fun i j => ?_⟩, rfl, rfl, fun i j => ?_⟩
  · simp [hm, hn]
  · simp [hm, hn, sub_eq_add_neg]
  · simp [neg, scalarMul, hm]

/-- The shapes agree up to dimensions of size 1. -/
def Broadcastable (M N : Mat A) : Prop := (M.r = N.r ∨ M.r = 1 ∨ N.r = 1) ∧ (M.c = N.c ∨ M.c = 1 ∨ N.c = 1)

/-- C62 (adding matrices of different shapes): refused with `ValueError` if some dimension differs and neither size is 1.
The full property, "refused whenever the shapes differ", fails: `C62_add_refuted`. -/
theorem C62_add_partial (M N : Mat A) :
    (¬ Broadcastable M N → add M N = .error .valueError) ∧ (Broadcastable M N → ∃ P, add M N = .ok P) := by
  unfold Broadcastable add bdim
  constructor
  · intro h
    split_ifs <;> first | rfl | (exfalso; omega)
  · intro h
    split_ifs <;> first | exact ⟨_, rfl⟩ | (exfalso; omega)

/-- C62: the identity matrix is neutral. -/
theorem C62_identity {a b : ℕ} {M : Mat A} {m : Matrix (Fin a) (Fin b) A} (hM : Rep M m) :
    Rep (identity a : Mat A) (1 : Matrix (Fin a) (Fin a) A) ∧
    Returns (dot (identity a) M) m ∧ Returns (dot M (identity b)) m ∧ Rep (zeros a b : Mat A) (0 : Matrix (Fin a) (Fin b) A) := by
  have hid : ∀ n, Rep (identity n : Mat A) (1 : Matrix (Fin n) (Fin n) A) := fun n => ⟨rfl, rfl, fun i j => by
    simp only [identity, Matrix.one_apply, Fin.ext_iff]⟩
  refine ⟨hid a, ?_, ?_, rfl, rfl, fun _ _ => rfl⟩
  · have := (C62_mul (hid a) hM).1 rfl
    simpa using this
  · have := (C62_mul hM (hid b)).1 rfl
    simpa using this

/-- C62: distributivity. -/
theorem C62_distrib {a b c : ℕ} {M N : Mat A} {P : Mat A} {m n : Matrix (Fin a) (Fin b) A} {p : Matrix (Fin b) (Fin c) A}
    (hM : Rep M m) (hN : Rep N n) (hP : Rep P p) :
    Returns (add M N >>= fun s => dot s P) (m * p + n * p) ∧
    Returns (do let x ← dot M P; let y ← dot N P; add x y) (m * p + n * p) := by
  obtain ⟨S, hS, hS'⟩ := (C62_add_sub hM hN).1
  obtain ⟨x, hx, hx'⟩ := (C62_mul hM hP).1 rfl
  obtain ⟨y, hy, hy'⟩ := (C62_mul hN hP).1 rfl
  constructor
  · rw [hS]
    show Returns (dot S P) _
    have := (C62_mul hS' hP).1 rfl
    simpa [Matrix.add_mul] using this
  · rw [hx, hy]
    show Returns (add x y) _
    have := (C62_add_sub hx' hy').1
    simpa using this

/-- C62: block matrices. The quadrants are at the right places; if the shapes do not fit, `ValueError`. -/
theorem C62_block_matrix {n m k l : ℕ} {MA MB MC MD : Mat A} {a : Matrix (Fin n) (Fin m) A} {b : Matrix (Fin n) (Fin k) A}
    {c : Matrix (Fin l) (Fin m) A} {d : Matrix (Fin l) (Fin k) A} (ha : Rep MA a) (hb : Rep MB b) (hc : Rep MC c) (hd : Rep MD d) :
    Returns (blockMatrix MA MB MC MD)
      ((Matrix.fromBlocks a b c d).submatrix (finSumFinEquiv (m := n) (n := l)).symm (finSumFinEquiv (m := m) (n := k)).symm) := by
  obtain ⟨rfl, rfl, ha⟩ := ha
  obtain ⟨hb1, rfl, hb⟩ := hb
  obtain ⟨rfl, hc1, hc⟩ := hc
  obtain ⟨hd1, hd2, hd⟩ := hd
  refine ⟨⟨MA.r + MC.r, MA.c + MB.c, fun i j => if i < MA.r then (if j < MA.c then MA.e i j else MB.e i (j - MA.c)) else
    (if j < MC.c then MC.e (i - MA.r) j else MD.e (i - MA.r) (j - MC.c))⟩, ?_, rfl, rfl, ?_⟩
  · simp [blockMatrix, hstack, vstack, hb1, hc1, hd1, hd2, Bind.bind, Except.bind]
  · intro i j
    simp only [Matrix.submatrix_apply]
    obtain ⟨i, rfl⟩ := finSumFinEquiv.surjective i
    obtain ⟨j, rfl⟩ := finSumFinEquiv.surjective j
    simp only [Equiv.symm_apply_apply]
    rcases i with i | i <;> rcases j with j | j <;> simp [hc1, ha, hb, hc, hd]

/-- C62: stacking refuses mismatched shapes. -/
theorem C62_stack_error (M N : Mat A) : (M.r ≠ N.r → hstack M N = .error .valueError) ∧ (M.c ≠ N.c → vstack M N = .error .valueError) :=
  ⟨fun h => by rw [hstack, if_pos h], fun h => by rw [vstack, if_pos h]⟩

/-- C62: the trace of a square matrix is the sum of the diagonal; for other matrices an error is raised. -/
theorem C62_trace {a b : ℕ} {M : Mat A} {m : Matrix (Fin a) (Fin b) A} (hM : Rep M m) :
    (∀ h : a = b, trace M = .ok (Matrix.trace (m.submatrix id (Fin.cast h)))) ∧ (a ≠ b → trace M = .error .other) := by
  obtain ⟨rfl, rfl, hm⟩ := hM
  constructor
  · intro h
    rw [trace, if_pos h, Matrix.trace, Finset.sum_range]
    congr 1
    refine Finset.sum_congr rfl fun i _ => ?_
    simp only [Matrix.diag, Matrix.submatrix_apply, id, ← hm, Fin.val_cast]
  · intro h
    rw [trace, if_neg h]

/-- C62 (adjoint): the adjoint is the conjugate transpose; taking it twice gives the matrix back, and the adjoint of a product is
the product of the adjoints in reverse order. -/
theorem C62_adjoint [StarRing A] {a b c : ℕ} {M N : Mat A} {m : Matrix (Fin a) (Fin b) A} {n : Matrix (Fin b) (Fin c) A} (hM : Rep M m)
    (hN : Rep N n) :
    Rep (adjoint M) m.conjTranspose ∧ adjoint (adjoint M) = M ∧
    Returns (adjoint <$> dot M N) (n.conjTranspose * m.conjTranspose) ∧
    Returns (dot (adjoint N) (adjoint M)) (n.conjTranspose * m.conjTranspose) := by
  have hadj : ∀ {a b : ℕ} {M : Mat A} {m : Matrix (Fin a) (Fin b) A}, Rep M m → Rep (adjoint M) m.conjTranspose := by
    rintro a b M m ⟨rfl, rfl, hm⟩
    exact ⟨rfl, rfl, fun i j => by simp [adjoint, elementWise, transpose, Matrix.conjTranspose_apply, hm]⟩
  refine ⟨hadj hM, ?_, ?_, ?_⟩
  · simp [adjoint, elementWise, transpose]
  · obtain ⟨P, hP, hP'⟩ := (C62_mul hM hN).1 rfl
    rw [hP]
    refine ⟨_, rfl, ?_⟩
    have := hadj hP'
    simpa [Matrix.conjTranspose_mul] using this
  · have := (C62_mul (hadj hN) (hadj hM)).1 rfl
    simpa using this

end ring

/-- C62 refuted: a row and a column of different lengths can be added; the result is a 3 × 2 matrix. -/
theorem C62_add_refuted :
    ∃ M N : Mat ℤ, (M.r, M.c) = (3, 1) ∧ (N.r, N.c) = (1, 2) ∧ (add M N).toOption.map (fun P => (P.r, P.c, ravel P)) =
      some (3, 2, [11, 12, 21, 22, 31, 32]) :=
  ⟨ofRows 3 1 [[10], [20], [30]] 0, ofRows 1 2 [[1, 2]] 0, rfl, rfl, by kernel_rfl⟩

/-! ### Element-wise operations -/

/-- C63: `element_wise` (used by `expand`, `simplify_scalar`, `substitute`) applies the function to every entry and keeps the shape. -/
theorem C63_element_wise {B : Type} {a b : ℕ} (f : A → B) {M : Mat A} {m : Matrix (Fin a) (Fin b) A} (hM : Rep M m) :
    Rep (elementWise f M) (m.map f) := by
  obtain ⟨rfl, rfl, hm⟩ := hM
  exact ⟨rfl, rfl, fun i j => by simp [elementWise, hm]⟩

theorem ravel_length (M : Mat A) : (ravel M).length = M.r * M.c := by
  simp [ravel, List.length_flatMap]

theorem ravel_get (M : Mat A) {i j : ℕ} (hi : i < M.r) (hj : j < M.c) : (ravel M)[i * M.c + j]? = some (M.e i j) := by
  obtain ⟨r, c, e⟩ := M
  simp only at hi hj ⊢
  simp only [ravel]
  clear * - hi hj
  induction r generalizing i e with
  | zero => omega
  | succ r ih =>
    rw [List.range_succ_eq_map, List.flatMap_cons]
    cases i with
    | zero =>
      rw [zero_mul, zero_add, List.getElem?_append_left (by simpa using hj)]
      simp [hj]
    | succ i =>
      rw [List.getElem?_append_right (by simp [Nat.succ_mul]; omega)]
      have := ih (i := i) (e := fun i j => e (i + 1) j) (by omega)
      simp only [List.flatMap_map, List.length_map, List.length_range]
      rw [show (i + 1) * c + j - c = i * c + j by rw [Nat.succ_mul]; omega]
      exact this

theorem foldl_min_const {N : ℕ} (l : List ℕ) (h : ∀ x ∈ l, x = N) : l.foldl min N = N := by
  induction l with
  | nil => rfl
  | cons a t ih =>
    rw [List.foldl_cons, h a (by simp), min_self]
    exact ih fun x hx => h x (List.mem_cons_of_mem _ hx)

theorem filterMap_full {B : Type} (rows : List (List B)) (k N : ℕ) (h : ∀ x ∈ rows, x.length = N) (hk : k < N) (n : ℕ) :
    (rows.filterMap (·[k]?))[n]? = rows[n]?.bind (·[k]?) := by
  induction rows generalizing n with
  | nil => simp
  | cons x t ih =>
    have hx : x[k]? = some (x[k]'(by rw [h x (by simp)]; exact hk)) := List.getElem?_eq_getElem _
    rw [List.filterMap_cons_some (f := fun x : List B => x[k]?) hx]
    cases n with
    | zero => simp [hx]
    | succ n => simpa using ih (fun y hy => h y (List.mem_cons_of_mem _ hy)) n

/-- C63 (series expansion): if every entry expands to `order + 1 = N` coefficients and the matrix is not empty, then the matrix
expands to `N` matrices of the same shape, the `k`-th of which holds the `k`-th coefficients of the entries. -/
theorem C63_series_expand_partial {B : Type} [Inhabited B] (f : A → List B) (M : Mat A) (N : ℕ) (hN : ∀ i < M.r, ∀ j < M.c, (f (M.e i j)).length = N)
    (h0 : 0 < M.r) (h1 : 0 < M.c) :
    (seriesExpand f M).length = N ∧ ∀ k (hk : k < (seriesExpand f M).length), (seriesExpand f M)[k].r = M.r ∧ (seriesExpand f M)[k].c = M.c ∧
      ∀ i < M.r, ∀ j < M.c, (f (M.e i j))[k]? = some ((seriesExpand f M)[k].e i j) := by
  have hall : ∀ x ∈ (ravel M).map f, x.length = N := by
    intro x hx
    simp only [ravel, List.mem_map, List.mem_flatMap, List.mem_range] at hx
    obtain ⟨y, ⟨i, hi, j, hj, rfl⟩, rfl⟩ := hx
    exact hN i hi j hj
  have hne : (ravel M).map f ≠ [] := by
    intro h
    have := congrArg List.length h
    rw [List.length_map, ravel_length] at this
    simp at this
    omega
  obtain ⟨x, xs, hx⟩ := List.exists_cons_of_ne_nil hne
  have hz : zipStar ((ravel M).map f) = (List.range N).map fun k => ((ravel M).map f).filterMap (·[k]?) := by
    rw [hx, zipStar]
    have : (List.map List.length (x :: xs)).foldl min x.length = N := by
      rw [show x.length = N from hall x (by rw [hx]; simp)]
      apply foldl_min_const
      intro y hy
      obtain ⟨w, hw, rfl⟩ := List.mem_map.mp hy
      exact hall w (by rw [hx]; exact hw)
    rw [this]
  have hlen : (seriesExpand f M).length = N := by simp [seriesExpand, hz]
  refine ⟨hlen, fun k hk => ?_⟩
  rw [hlen] at hk
  have hget : (seriesExpand f M)[k]'(by rw [hlen]; exact hk) = reshape M.r M.c (((ravel M).map f).filterMap (·[k]?)) := by
    simp [seriesExpand, hz]
  rw [hget]
  refine ⟨rfl, rfl, fun i hi j hj => ?_⟩
  simp only [reshape, List.getD_eq_getElem?_getD]
  rw [filterMap_full _ k N hall hk, List.getElem?_map, ravel_get M hi hj]
  simp only [Option.map_some, Option.bind_some]
  rw [List.getElem?_eq_getElem (by rw [hN i hi j hj]; exact hk)]
  rfl

/-- C63 refuted: the expansion of an empty matrix is the empty tuple, whatever the order, instead of `order + 1` empty matrices. -/
theorem C63_series_expand_empty_refuted {B : Type} [Inhabited B] (f : A → List B) (M : Mat A) (h : M.r = 0 ∨ M.c = 0) : seriesExpand f M = [] := by
  have : ravel M = [] := by
    rw [← List.length_eq_zero_iff, ravel_length]
    rcases h with h | h <;> simp [h]
  simp [seriesExpand, this, zipStar]

example : (seriesExpand (fun x : ℤ => [x, 2 * x, 0]) (ofRows 2 2 [[1, 2], [3, 4]] 0)).map ravel = [[1, 2, 3, 4], [2, 4, 6, 8], [0, 0, 0, 0]] := by
  kernel_rfl

/-! ### Permutation matrices -/

section perm

variable [Ring A]

theorem permLoop_ok (n : ℕ) : ∀ (l : List (ℕ × ℕ)) (M : Mat A), M.r = n → M.c = n → (∀ x ∈ l, x.1 < n ∧ x.2 < n) →
    ∃ P, permLoop M l = .ok P ∧ P.r = n ∧ P.c = n ∧ ∀ i j, P.e i j = if (i, j) ∈ l then 1 else M.e i j
  | [], M, h1, h2, _ => ⟨M, rfl, h1, h2, by simp⟩
  | (a, b) :: rest, M, h1, h2, h3 => by
    have hab := h3 (a, b) (by simp)
    obtain ⟨P, hP, hr, hc, he⟩ := permLoop_ok n rest ⟨M.r, M.c, fun i j => if i = a ∧ j = b then 1 else M.e i j⟩ h1 h2
      (fun x hx => h3 x (List.mem_cons_of_mem _ hx))
    refine ⟨P, ?_, hr, hc, ?_⟩
    · rw [permLoop, setEntry, if_pos (by rw [h1, h2]; exact hab)]
      exact hP
    · intro i j
      rw [he]
      by_cases h : (i, j) ∈ rest
      · simp [h]
      · by_cases h' : i = a ∧ j = b <;> simp [h, h']

/-- The mathematical permutation matrix: column `j` is the basis vector number `p[j]`. -/
def permMat (n : ℕ) (p : List ℕ) : Matrix (Fin n) (Fin n) A := Matrix.of fun i j => if p[(j : ℕ)]? = some (i : ℕ) then 1 else 0

/-- C63 (permutation matrices): `permutation_matrix(p)` is the matrix with columns `e_{p(0)}, e_{p(1)}, …`; a tuple that is not a
permutation fails an assertion. -/
theorem C63_permutation_matrix (p : List ℕ) :
    (IsBijection p → Returns (permutationMatrix p : Res (Mat A)) (permMat p.length p)) ∧
    (¬ IsBijection p → (permutationMatrix p : Res (Mat A)) = .error .assertion) := by
  constructor
  · intro hp
    have hv := (Perm.valid_iff p).mpr hp
    rw [permutationMatrix, if_pos ((Perm.C01_check_iff p).mpr hp)]
    obtain ⟨P, h1, h2, h3, h4⟩ := permLoop_ok (A := A) p.length p.zipIdx (zeros p.length p.length) rfl rfl (by
      rintro ⟨a, b⟩ hx
      have hx' := List.mem_zipIdx' hx
      refine ⟨?_, hx'.1⟩
      have := hv.lt hx'.1
      rw [← hx'.2] at this
      exact this)
    refine ⟨P, h1, h2, h3, fun i j => ?_⟩
    rw [h4]
    simp only [permMat, Matrix.of_apply, zeros, List.mem_zipIdx_iff_getElem?]
  · intro hp
    have : Perm.check p ≠ true := fun h => hp ((Perm.C01_check_iff p).mp h)
    rw [permutationMatrix, if_neg this]

/-- C63: applying the permutation matrix to the `j`-th basis vector gives the basis vector number `p(j)`. -/
theorem C63_perm_basis (p : List ℕ) (j k : Fin p.length) (h : p[(j : ℕ)]? = some (k : ℕ)) :
    (permMat p.length p : Matrix _ _ A).mulVec (Pi.single j 1) = Pi.single k 1 := by
  funext i
  rw [Matrix.mulVec_single_one]
  simp only [Matrix.col_apply, permMat, Matrix.of_apply, Pi.single_apply, Fin.ext_iff, h, Option.some.injEq, eq_comm]

/-- C63: the composition law `M_{σ·τ} = M_σ M_τ`, with `σ·τ = compose_permutations(σ, τ)`. -/
theorem C63_perm_compose (p q : List ℕ) (hp : IsBijection p) (hq : IsBijection q) (hl : p.length = q.length) :
    ∃ (pq : List ℕ) (X : Matrix (Fin p.length) (Fin p.length) A), Perm.compose p q = .ok pq ∧
      Returns (permutationMatrix pq) X ∧ Returns (do let MP ← permutationMatrix p; let MQ ← permutationMatrix q; dot MP MQ) X := by
  have hvp := (Perm.valid_iff p).mpr hp
  have hvq := (Perm.valid_iff q).mpr hq
  have hcv := Perm.comp_valid hl hvp hvq
  obtain ⟨MP, a1, a2⟩ := (C63_permutation_matrix (A := A) p).1 hp
  obtain ⟨MQ, b1, b2⟩ := (C63_permutation_matrix (A := A) q).1 hq
  have hc := (C63_permutation_matrix (A := A) _).1 ((Perm.valid_iff _).mp hcv)
  have hlen : (Perm.comp p q).length = p.length := by simp [hl]
  rw [hlen] at hc
  rw [← hl] at b2
  refine ⟨_, _, Perm.compose_ok hl hvq, hc, ?_⟩
  rw [a1, b1]
  show Returns (dot MP MQ) _
  have := (C62_mul a2 b2).1 rfl
  convert this using 1
  ext i j
  simp only [permMat, Matrix.of_apply, Matrix.mul_apply, Matrix.submatrix_apply, Fin.cast_refl, id]
  have hj : (j : ℕ) < q.length := by rw [← hl]; exact j.2
  have hqj : q[(j : ℕ)] < p.length := lt_of_lt_of_eq (hvq.lt hj) hl.symm
  rw [Finset.sum_eq_single ⟨q[(j : ℕ)], hqj⟩]
  · have h1 : (Perm.comp p q)[(j : ℕ)]? = some (p[q[(j : ℕ)]]) := by
      rw [List.getElem?_eq_getElem (by simpa using hj), Perm.comp_getElem hl hvq hj]
    rw [h1, List.getElem?_eq_getElem hj, List.getElem?_eq_getElem hqj]
    simp
  · intro b _ hb
    have : ¬ q[(j : ℕ)]? = some (b : ℕ) := by
      rw [List.getElem?_eq_getElem hj]
      intro h
      exact hb (Fin.ext (by simpa using h.symm))
    simp [this]
  · simp

/-- C63: orthogonality. The matrix of the inverse permutation is the transposed matrix, which is its inverse. -/
theorem C63_perm_inverse (p : List ℕ) (hp : IsBijection p) :
    ∃ ip, Perm.invert p = .ok ip ∧ Returns (permutationMatrix ip) (permMat p.length p : Matrix _ _ A).transpose ∧
      Returns (do let M ← permutationMatrix p; let N ← permutationMatrix ip; dot M N) (1 : Matrix (Fin p.length) (Fin p.length) A) := by
  obtain ⟨ip, h1, h2, h3, h4, h5, h6⟩ := Perm.C02_invert hp
  have hpt := Perm.C02_invert_pointwise hp h1
  have hi := (C63_permutation_matrix (A := A) ip).1 h2
  rw [h3] at hi
  have ht : (permMat p.length ip : Matrix _ _ A) = (permMat p.length p).transpose := by
    ext i j
    simp only [permMat, Matrix.of_apply, Matrix.transpose_apply, hpt]
  refine ⟨ip, h1, by rw [← ht]; exact hi, ?_⟩
  obtain ⟨pq, X, c1, c2, c3⟩ := C63_perm_compose (A := A) p ip hp h2 h3.symm
  rw [h4] at c1
  cases c1
  have hr := (C63_permutation_matrix (A := A) (List.range p.length)).1 ((Perm.valid_iff _).mp (Perm.valid_range _))
  rw [List.length_range] at hr
  obtain ⟨Q, hQ, hQ'⟩ := c2
  obtain ⟨Q1, hQ1, hQ1'⟩ := hr
  rw [hQ] at hQ1
  cases hQ1
  have hX : X = 1 := by
    rw [rep_unique hQ' hQ1']
    ext i j
    simp only [permMat, Matrix.of_apply, List.getElem?_range j.2, Option.some.injEq, Matrix.one_apply, Fin.ext_iff, eq_comm]
  rw [← hX]
  exact c3

example : (permutationMatrix [2, 0, 1] : Res (Mat ℤ)).toOption.map ravel = some [0, 1, 0, 0, 0, 1, 1, 0, 0] := by kernel_rfl

end perm

end QNET.Mat
