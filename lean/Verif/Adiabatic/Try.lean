import Verif.Adiabatic.Thm

/-!
# C68: automatic adiabatic elimination

Model of `try_adiabatic_elimination`, `src/qnet/algebra/core/circuit_algebra.py` lines 1726-1775, for models on one finite-dimensional local space: operators are the matrices
over the `d` levels of the space.
-/

namespace QNET.Adiabatic

open Finset Perm

/-- operators on a space with `d` levels -/
abbrev Mat (d : ℕ) : Type := Matrix (Fin d) (Fin d) ℂ

/-- `LocalSigma(j, k)` and `LocalProjector(j) = LocalSigma(j, j)`, operator_algebra.py lines 305, 442-450 -/
abbrev sigma {d : ℕ} (j k : Fin d) : Mat d := Matrix.single j k 1

/-- `b`, lines 1736-1741: the basis labels, cut after `fock_trunc` of them -/
def levels (d trunc : ℕ) : List (Fin d) := (List.finRange d).take trunc

open Classical in
/-- the levels `j` with `LocalProjector(j)` in `projectors - terms`, line 1757 -/
noncomputable def nulls {d : ℕ} (trunc : ℕ) (Y : Mat d) : List (Fin d) := (levels d trunc).filter fun j => Y j j = 0

open Classical in
/-- the levels `j` with `LocalProjector(j)` in `terms & projectors`, line 1761 -/
noncomputable def fasts {d : ℕ} (trunc : ℕ) (Y : Mat d) : List (Fin d) := (levels d trunc).filter fun j => Y j j ≠ 0

/-- `P0 = sum(projectors - terms, ZeroOperator)`, line 1757 -/
noncomputable def nullProj {d : ℕ} (trunc : ℕ) (Y : Mat d) : Mat d := ((nulls trunc Y).map fun j => sigma j j).sum

/-- `Yinv = sum(t/termcoeffs[t] for t in terms & projectors)`, line 1761 -/
noncomputable def pinv {d : ℕ} (trunc : ℕ) (Y : Mat d) : Mat d := ((fasts trunc Y).map fun j => (Y j j)⁻¹ • sigma j j).sum

open Classical in
/-- The substitution of `P0` by the identity in one entry, lines 1767-1770. If the null space has one level, the entry is a multiple of its projector `P0`; otherwise `P0`
is a sum, and only an entry which is `P0` itself is replaced, because `expand` distributes the other entries. -/
noncomputable def subst {d : ℕ} (trunc : ℕ) (Y x : Mat d) : Mat d :=
  match nulls trunc Y with
  | [j] => x j j • 1
  | _ => if x = nullProj trunc Y then 1 else x

open Classical in
/-- `try_adiabatic_elimination(slh, k, fock_trunc, sub_P0)`, lines 1726-1775. The terms of the projected `Y` (lines 1744-1748) are the `LocalSigma(j, k)` with
a non-zero matrix element between levels in `b`.
* A term `LocalSigma(j, k)` with `j ≠ k` makes line 1753 evaluate `term.operands`, which instances of `LocalSigma` do not have (only instances of `Operation`
  do, abstract_algebra.py lines 823-826): `AttributeError`.
* If there are no terms, `get_coeffs` returns `{ZeroOperator: 1}` (operator_algebra.py lines 907-916), and `ZeroOperator` is not a `LocalSigma`:
  `CannotEliminateAutomatically`, a subclass of `AlgebraError` (exceptions.py line 53).
* `CannotEliminateAutomatically` if there are no null levels (lines 1758-1759). -/
noncomputable def tryElim {d : ℕ} (m : KSLH (Mat d)) (trunc : ℕ) (subP0 : Bool) : Res (SLH (Mat d)) :=
  let o := prepare m
  if ∃ j ∈ levels d trunc, ∃ k ∈ levels d trunc, j ≠ k ∧ o.Y j k ≠ 0 then .error .attributeError
  else if fasts trunc o.Y = [] then .error .algebraError
  else if nulls trunc o.Y = [] then .error .algebraError
  else
    let a := evalLimit o (pinv trunc o.Y) (nullProj trunc o.Y)
    if subP0 then .ok (SLH.mk' a.n (fun i j => subst trunc o.Y (a.S i j)) (fun i => subst trunc o.Y (a.L i)) (subst trunc o.Y a.H))
    else .ok a

/-! ### Lemmas -/

variable {d : ℕ}

theorem levels_all {trunc : ℕ} (h : d ≤ trunc) : levels d trunc = List.finRange d := by
  rw [levels, List.take_of_length_le]
  simpa using h

theorem levels_nodup (trunc : ℕ) : (levels d trunc).Nodup := (List.nodup_finRange d).sublist (List.take_sublist _ _)

theorem sum_diag (l : List (Fin d)) (hl : l.Nodup) (c : Fin d → ℂ) :
    (l.map fun j => c j • sigma j j).sum = Matrix.diagonal fun j => if j ∈ l then c j else 0 := by
  induction l with
  | nil => simp
  | cons a l ih =>
    rw [List.nodup_cons] at hl
    rw [List.map_cons, List.sum_cons, ih hl.2]
    ext i j
    rw [Matrix.add_apply, Matrix.smul_apply, Matrix.diagonal_apply, Matrix.diagonal_apply]
    by_cases hij : i = j
    · subst hij
      rw [if_pos rfl, if_pos rfl]
      by_cases hi : i = a
      · subst hi
        simp [hl.1]
      · have : ¬ a = i := fun h => hi h.symm
        simp [sigma, Matrix.single_apply, this, hi]
    · rw [if_neg hij, if_neg hij]
      have : ¬ (a = i ∧ a = j) := fun h => hij (h.1.symm.trans h.2)
      simp [sigma, Matrix.single_apply, this]

open Classical in
theorem nullProj_eq (trunc : ℕ) (Y : Mat d) :
    nullProj trunc Y = Matrix.diagonal fun j => if j ∈ levels d trunc ∧ Y j j = 0 then 1 else 0 := by
  have h := sum_diag (nulls trunc Y) ((levels_nodup trunc).filter _) (fun _ => 1)
  simp only [one_smul] at h
  rw [nullProj, h]
  congr 1
  funext j
  simp [nulls]

open Classical in
theorem pinv_eq (trunc : ℕ) (Y : Mat d) :
    pinv trunc Y = Matrix.diagonal fun j => if j ∈ levels d trunc ∧ Y j j ≠ 0 then (Y j j)⁻¹ else 0 := by
  rw [pinv, sum_diag (fasts trunc Y) ((levels_nodup trunc).filter _) (fun j => (Y j j)⁻¹)]
  congr 1
  funext j
  simp [fasts]

theorem isDiag {trunc : ℕ} (h : d ≤ trunc) {Y : Mat d} (hY : ¬ ∃ j ∈ levels d trunc, ∃ k ∈ levels d trunc, j ≠ k ∧ Y j k ≠ 0) :
    Y = Matrix.diagonal fun j => Y j j := by
  ext i j
  rw [Matrix.diagonal_apply]
  split
  · next h => subst h; rfl
  · next hij =>
    by_contra hc
    refine hY ⟨i, ?_, j, ?_, hij, hc⟩ <;> rw [levels_all h] <;> exact List.mem_finRange _

/-- a Hermitian part without diagonal element forces the couplings to vanish -/
theorem row_zero {n : ℕ} (F : ℕ → Mat d) {Y : Mat d} (hyy : Y + star Y = -∑ i ∈ range n, F i * star (F i)) {j : Fin d} (hj : Y j j = 0)
    {i : ℕ} (hi : i < n) (k : Fin d) : F i j k = 0 := by
  have h := congrFun (congrFun hyy j) j
  rw [Matrix.add_apply, Matrix.star_apply, hj, star_zero, add_zero, Matrix.neg_apply, Matrix.sum_apply] at h
  have h2 : ∀ i, (F i * star (F i)) j j = ((∑ k, ‖F i j k‖ ^ 2 : ℝ) : ℂ) := by
    intro i
    rw [Matrix.mul_apply, Complex.ofReal_sum]
    refine sum_congr rfl fun k _ => ?_
    rw [Matrix.star_apply, Complex.ofReal_pow, ← Complex.mul_conj']
    rfl
  simp only [h2, ← Complex.ofReal_sum] at h
  have h3 : ∑ i ∈ range n, ∑ k, ‖F i j k‖ ^ 2 = 0 := by
    have : ((∑ i ∈ range n, ∑ k, ‖F i j k‖ ^ 2 : ℝ) : ℂ) = 0 := neg_eq_zero.mp h.symm
    exact_mod_cast this
  have h4 := (sum_eq_zero_iff_of_nonneg (fun i _ => sum_nonneg fun k _ => sq_nonneg _)).mp h3 i (mem_range.mpr hi)
  have h5 := (sum_eq_zero_iff_of_nonneg (fun k _ => sq_nonneg _)).mp h4 k (mem_univ k)
  exact norm_eq_zero.mp (pow_eq_zero_iff (two_ne_zero) |>.mp h5)

/-! ### C68 -/

/-- The conditions that `try_adiabatic_elimination` does not check. -/
structure Unchecked (o : Ops (Mat d)) (Yt P0 : Mat d) : Prop where
  noA : P0 * o.A * P0 = 0
  keepG : ∀ i, i < o.n → P0 * (o.G i - o.A * Yt * o.F i) * (1 - P0) = 0
  keepN : ∀ i j, i < o.n → j < o.n → (∑ l ∈ range o.n, P0 * o.N i l * dN o Yt l j) * (1 - P0) = 0

theorem eliminable {m : KSLH (Mat d)} (h : Scaled m) {trunc : ℕ} (ht : d ≤ trunc)
    (hY : ¬ ∃ j ∈ levels d trunc, ∃ k ∈ levels d trunc, j ≠ k ∧ (prepare m).Y j k ≠ 0)
    (hu : Unchecked (prepare m) (pinv trunc (prepare m).Y) (nullProj trunc (prepare m).Y)) :
    Eliminable (prepare m) (pinv trunc (prepare m).Y) (nullProj trunc (prepare m).Y) := by
  classical
  have hall : ∀ j : Fin d, j ∈ levels d trunc := fun j => by rw [levels_all ht]; exact List.mem_finRange j
  have hD := isDiag ht hY
  have hP : nullProj trunc (prepare m).Y = Matrix.diagonal fun j => if (prepare m).Y j j = 0 then 1 else 0 := by
    rw [nullProj_eq]; simp only [hall, true_and]
  have hI : pinv trunc (prepare m).Y = Matrix.diagonal fun j => if (prepare m).Y j j ≠ 0 then ((prepare m).Y j j)⁻¹ else 0 := by
    rw [pinv_eq]; simp only [hall, true_and]
  have h1 : (1 : Mat d) = Matrix.diagonal fun _ => 1 := Matrix.diagonal_one.symm
  refine ⟨?_, ?_, ?_, ?_, ?_, ?_, ?_, ?_, hu.noA, hu.keepG, hu.keepN⟩
  · rw [hP, Matrix.diagonal_mul_diagonal]
    congr 1; funext j; split <;> simp
  · rw [hP, Matrix.star_eq_conjTranspose, Matrix.diagonal_conjTranspose]
    congr 1; funext j; simp only [Pi.star_apply]; split <;> simp
  · rw [hP]
    conv_lhs => rw [hD]
    rw [Matrix.diagonal_mul_diagonal, ← Matrix.diagonal_zero]
    congr 1; funext j; by_cases hj : (prepare m).Y j j = 0 <;> simp [hj]
  · rw [hP, hI]
    conv_lhs => rw [hD]
    rw [Matrix.diagonal_mul_diagonal, h1, Matrix.diagonal_sub]
    congr 1; funext j; by_cases hj : (prepare m).Y j j = 0 <;> simp [hj]
  · rw [hP, hI]
    conv_lhs => rw [hD]
    rw [Matrix.diagonal_mul_diagonal, h1, Matrix.diagonal_sub]
    congr 1; funext j; by_cases hj : (prepare m).Y j j = 0 <;> simp [hj]
  · rw [hP, hI, Matrix.diagonal_mul_diagonal, ← Matrix.diagonal_zero]
    congr 1; funext j; by_cases hj : (prepare m).Y j j = 0 <;> simp [hj]
  · rw [hP, hI, Matrix.diagonal_mul_diagonal, ← Matrix.diagonal_zero]
    congr 1; funext j; by_cases hj : (prepare m).Y j j = 0 <;> simp [hj]
  · intro i hi
    rw [hP]
    ext j k
    rw [Matrix.diagonal_mul, Matrix.zero_apply]
    by_cases hj : (prepare m).Y j j = 0
    · rw [row_zero (prepare m).F (prepare_rel h).yy hj hi k, mul_zero]
    · rw [if_neg hj, zero_mul]

/-- `P0` is the orthogonal projector onto the null space of `Y`. -/
def IsNullProj (Y P0 : Mat d) : Prop := star P0 = P0 ∧ P0 * P0 = P0 ∧ ∀ v : Fin d → ℂ, Y.mulVec v = 0 ↔ P0.mulVec v = v

theorem isNullProj {o : Ops (Mat d)} {Yt P0 : Mat d} (E : Eliminable o Yt P0) : IsNullProj o.Y P0 := by
  refine ⟨E.herm, E.proj, fun v => ⟨fun h => ?_, fun h => ?_⟩⟩
  · have h1 : (Yt * o.Y).mulVec v = 0 := by rw [← Matrix.mulVec_mulVec, h, Matrix.mulVec_zero]
    rw [E.inv', Matrix.sub_mulVec, Matrix.one_mulVec, sub_eq_zero] at h1
    exact h1.symm
  · rw [← h, Matrix.mulVec_mulVec, E.ker, Matrix.zero_mulVec]

theorem tryElim_ok {m : KSLH (Mat d)} {trunc : ℕ} {a : SLH (Mat d)} (h : tryElim m trunc false = .ok a) :
    (¬ ∃ j ∈ levels d trunc, ∃ k ∈ levels d trunc, j ≠ k ∧ (prepare m).Y j k ≠ 0) ∧ a = evalLimit (prepare m) (pinv trunc (prepare m).Y) (nullProj trunc (prepare m).Y) := by
  rw [tryElim] at h
  simp only at h
  split at h
  · cases h
  · next h1 =>
    split at h
    · cases h
    · split at h
      · cases h
      · rw [if_neg (by decide)] at h
        cases h
        exact ⟨h1, rfl⟩

open scoped Matrix.Norms.L2Operator in
/-- C68: if `fock_trunc` is at least the number of levels, and the model satisfies the conditions that are not checked, then the model returned by `try_adiabatic_elimination` (without
substituting `P0`) is the limit of the model: there is a projector `P0` onto the null space of `Y` on which the evolution for all coherent fields and times converges to the evolution of the
returned model. Missing for the full claim: spaces with more than `fock_trunc` levels and the unchecked conditions (`C68_trunc_refuted`, `C68_unchecked_refuted`). -/
theorem C68_try_partial {m : KSLH (Mat d)} (h : Scaled m) {trunc : ℕ} (ht : d ≤ trunc) {a : SLH (Mat d)} (ha : tryElim m trunc false = .ok a)
    (hu : Unchecked (prepare m) (pinv trunc (prepare m).Y) (nullProj trunc (prepare m).Y)) :
    ∃ P0 : Mat d, IsNullProj (prepare m).Y P0 ∧ P0 ≠ 0 ∧ star a.H = a.H ∧
      (∀ k l, k < a.n → l < a.n → ∑ i ∈ range a.n, star (a.S i k) * a.S i l = if k = l then P0 else 0) ∧
      (∀ k l, k < a.n → l < a.n → ∑ i ∈ range a.n, a.S k i * star (a.S l i) = if k = l then P0 else 0) ∧
      ∀ (α β : ℕ → ℂ) (t : ℝ), 0 ≤ t →
        Filter.Tendsto (fun k : ℝ => NormedSpace.exp (t • generator (m.at k) 1 α β) * P0) Filter.atTop
          (nhds (P0 * NormedSpace.exp (t • generator a P0 α β))) := by
  classical
  obtain ⟨h1, rfl⟩ := tryElim_ok ha
  have E := eliminable h ht h1 hu
  obtain ⟨-, c1, c2, -⟩ := C67_physical h E
  refine ⟨_, isNullProj E, ?_, c1, c2, C67_unitary h E, fun α β t h0 => C67_convergence h E α β h0⟩
  intro h0
  have hn : nulls trunc (prepare m).Y ≠ [] := by
    intro hc
    rw [tryElim] at ha
    simp only at ha
    rw [if_neg h1, if_pos hc] at ha
    split at ha <;> cases ha
  obtain ⟨j, hj⟩ := List.exists_mem_of_ne_nil _ hn
  rw [nulls, List.mem_filter] at hj
  have := congrFun (congrFun h0 j) j
  rw [nullProj_eq, Matrix.diagonal_apply_eq, if_pos ⟨hj.1, by simpa using hj.2⟩] at this
  exact one_ne_zero this

/-- C68: if `fock_trunc` is at least the number of levels, `try_adiabatic_elimination` succeeds exactly if `Y` is diagonal, not zero, and has a null space. -/
theorem C68_total (m : KSLH (Mat d)) {trunc : ℕ} (ht : d ≤ trunc) (s : Bool) :
    (∃ a, tryElim m trunc s = .ok a) ↔
      (∀ j k, j ≠ k → (prepare m).Y j k = 0) ∧ (∃ j, (prepare m).Y j j ≠ 0) ∧ ∃ j, (prepare m).Y j j = 0 := by
  classical
  have hall : ∀ j : Fin d, j ∈ levels d trunc := fun j => by rw [levels_all ht]; exact List.mem_finRange j
  have hf : fasts trunc (prepare m).Y = [] ↔ ¬ ∃ j, (prepare m).Y j j ≠ 0 := by
    simp [fasts, List.filter_eq_nil_iff, hall]
  have hn : nulls trunc (prepare m).Y = [] ↔ ¬ ∃ j, (prepare m).Y j j = 0 := by
    simp [nulls, List.filter_eq_nil_iff, hall]
  have ho : (∃ j ∈ levels d trunc, ∃ k ∈ levels d trunc, j ≠ k ∧ (prepare m).Y j k ≠ 0) ↔ ¬ ∀ j k, j ≠ k → (prepare m).Y j k = 0 := by
    push Not
    constructor
    · rintro ⟨j, -, k, -, h⟩; exact ⟨j, k, h⟩
    · rintro ⟨j, k, h⟩; exact ⟨j, hall j, k, hall k, h⟩
  rw [tryElim]
  simp only [ho, hf, hn]
  by_cases h1 : ∀ j k, j ≠ k → (prepare m).Y j k = 0
  · by_cases h2 : ∃ j, (prepare m).Y j j ≠ 0
    · by_cases h3 : ∃ j, (prepare m).Y j j = 0
      · rw [if_neg (not_not.mpr h1), if_neg (not_not.mpr h2), if_neg (not_not.mpr h3)]
        refine ⟨fun _ => ⟨h1, h2, h3⟩, fun _ => ?_⟩
        cases s
        · exact ⟨_, if_neg (by decide)⟩
        · exact ⟨_, if_pos rfl⟩
      · rw [if_neg (not_not.mpr h1), if_neg (not_not.mpr h2), if_pos h3]
        exact ⟨fun h => by (obtain ⟨a, h⟩ := h; cases h), fun h => absurd h.2.2 h3⟩
    · rw [if_neg (not_not.mpr h1), if_pos h2]
      exact ⟨fun h => by (obtain ⟨a, h⟩ := h; cases h), fun h => absurd h.2.1 h2⟩
  · rw [if_pos h1]
    exact ⟨fun h => by (obtain ⟨a, h⟩ := h; cases h), fun h => absurd h.1 h1⟩

/-- C68: the substitution of the null-space projector (`sub_P0=True`) does not change the operators of the returned model on the null space. -/
theorem C68_sub {m : KSLH (Mat d)} {trunc : ℕ} {a b : SLH (Mat d)} (ha : tryElim m trunc false = .ok a)
    (hb : tryElim m trunc true = .ok b) :
    b.n = a.n ∧ (let P0 := nullProj trunc (prepare m).Y
      P0 * b.H * P0 = a.H ∧ (∀ i, P0 * b.L i * P0 = a.L i) ∧ ∀ i j, P0 * b.S i j * P0 = a.S i j) := by
  classical
  obtain ⟨h1, rfl⟩ := tryElim_ok ha
  have hP := nullProj_eq trunc (prepare m).Y
  have hpp : nullProj trunc (prepare m).Y * nullProj trunc (prepare m).Y = nullProj trunc (prepare m).Y := by
    rw [hP, Matrix.diagonal_mul_diagonal]
    congr 1; funext j; split <;> simp
  have hps : star (nullProj trunc (prepare m).Y) = nullProj trunc (prepare m).Y := by
    rw [hP, Matrix.star_eq_conjTranspose, Matrix.diagonal_conjTranspose]
    congr 1; funext j; simp only [Pi.star_apply]; split <;> simp
  have hsub : ∀ x : Mat d, nullProj trunc (prepare m).Y * x * nullProj trunc (prepare m).Y = x →
      nullProj trunc (prepare m).Y * subst trunc (prepare m).Y x * nullProj trunc (prepare m).Y = x := by
    intro x hx
    rw [subst]
    split
    · next j hj =>
      have hPj : nullProj trunc (prepare m).Y = sigma j j := by rw [nullProj, hj]; simp
      rw [hPj] at hx ⊢
      conv_rhs => rw [← hx]
      ext p q
      simp only [sigma, Matrix.mul_smul, Matrix.mul_one, Matrix.smul_mul, Matrix.single_mul_mul_single]
      simp [Matrix.single_apply]
    · split
      · next h => rw [mul_one, hpp, h]
      · exact hx
  have hpx : ∀ x : Mat d, nullProj trunc (prepare m).Y * (nullProj trunc (prepare m).Y * x * nullProj trunc (prepare m).Y) * nullProj trunc (prepare m).Y
      = nullProj trunc (prepare m).Y * x * nullProj trunc (prepare m).Y := by
    intro x
    rw [show ∀ P : Mat d, P * (P * x * P) * P = (P * P) * x * (P * P) by intro P; noncomm_ring, hpp]
  have hsp : ∀ x : Mat d, nullProj trunc (prepare m).Y * x * nullProj trunc (prepare m).Y = x →
      nullProj trunc (prepare m).Y * star x * nullProj trunc (prepare m).Y = star x := by
    intro x hx
    have := congrArg star hx
    rwa [star_mul, star_mul, hps, ← mul_assoc] at this
  rw [tryElim] at ha hb
  simp only at ha hb
  rw [if_neg h1] at ha hb
  by_cases h2 : fasts trunc (prepare m).Y = []
  · rw [if_pos h2] at ha; cases ha
  by_cases h3 : nulls trunc (prepare m).Y = []
  · rw [if_neg h2, if_pos h3] at ha; cases ha
  rw [if_neg h2, if_neg h3, if_pos trivial] at hb
  cases hb
  refine ⟨rfl, ?_, ?_, ?_⟩
  · apply hsub
    show nullProj _ _ * star (hlim _ _ _) * nullProj _ _ = star (hlim _ _ _)
    apply hsp
    have hK : ∀ o : Ops (Mat d), ∀ Yt, nullProj trunc (prepare m).Y * klim o Yt (nullProj trunc (prepare m).Y) * nullProj trunc (prepare m).Y
      = klim o Yt (nullProj trunc (prepare m).Y) := fun o Yt => hpx _
    simp only [hlim, mul_smul_comm, smul_mul_assoc, mul_sub, sub_mul]
    rw [hK, hsp _ (hK _ _)]
  · intro i
    show nullProj _ _ * (if i < m.n then subst _ _ (if i < m.n then _ else _) else 0) * nullProj _ _ = (if i < m.n then _ else _)
    split
    · exact hsub _ (hsp _ (hpx _))
    · rw [mul_zero, zero_mul]
  · intro i j
    show nullProj _ _ * (if i < m.n ∧ j < m.n then subst _ _ (if i < m.n ∧ j < m.n then _ else _) else 0) * nullProj _ _ = (if i < m.n ∧ j < m.n then _ else _)
    split
    · apply hsub
      apply hsp
      have : ∀ P0 : Mat d, ∀ Yt, nlim (prepare m) Yt P0 j i = P0 * (∑ l ∈ range m.n, (prepare m).N j l * dN (prepare m) Yt l i) * P0 := by
        intro P0 Yt
        rw [nlim, mul_sum]
        simp only [mul_assoc]
        rfl
      rw [this]
      exact hpx _
    · rw [mul_zero, zero_mul]

end QNET.Adiabatic
