import Mathlib.Data.Complex.Basic
import Mathlib.Tactic.Ring
import Verif.Mat.Model

/-!
# C106: real and imaginary parts of matrices (`src/qnet/algebra/core/matrix_algebra.py` lines 167-254)

Entries are known by their value and by the attributes that the code looks at. `exact` are the attributes `real` and `imag` of Python numbers and of QNET's scalars,
`symbolic` is SymPy's `as_real_imag`, `conjugate` are entries for which only a conjugate is defined, `other` are operators and the rest.
-/

namespace QNET.Mat

open Complex

/-- an entry of a matrix -/
inductive Cx
  | exact (z : ℂ)
  | symbolic (z : ℂ)
  | conjugate (z : ℂ)
  | other
/-- the value (specification) -/
def Cx.val : Cx → ℂ
  | .exact z => z
  | .symbolic z => z
  | .conjugate z => z
  | .other => 0

/-- `re`, lines 205-217; none: NoConjugateMatrix -/
noncomputable def reEntry : Cx → Option ℂ
  | .exact z => some z.re
  | .symbolic z => some z.re
  | .conjugate z => some ((star z + z) / 2)
  | .other => none

/-- `im`, lines 239-249 -/
noncomputable def imEntry : Cx → Option ℂ
  | .exact z => some z.im
  | .symbolic z => some z.im
  | .conjugate z => some ((star z - z) / (2 * I))
  | .other => none

/-- `.conjugate()` -/
noncomputable def conjEntry : Cx → Option ℂ
  | .exact z => some (star z)
  | .symbolic z => some (star z)
  | .conjugate z => some (star z)
  | .other => none

/-- `element_wise` with a function that may raise, lines 285-300 -/
def elementWiseE (f : Cx → Option ℂ) (M : Mat Cx) : Option (Mat ℂ) :=
  if (List.range M.r).all fun i => (List.range M.c).all fun j => (f (M.e i j)).isSome then some ⟨M.r, M.c, fun i j => (f (M.e i j)).getD 0⟩ else none

/-- `Matrix.real` -/
noncomputable def matReal (M : Mat Cx) : Option (Mat ℂ) := elementWiseE reEntry M
/-- `Matrix.imag` -/
noncomputable def matImag (M : Mat Cx) : Option (Mat ℂ) := elementWiseE imEntry M
/-- `Matrix.conjugate`, lines 167-184 -/
noncomputable def matConj (M : Mat Cx) : Option (Mat ℂ) := elementWiseE conjEntry M

/-- the matrix has the shape of `M` and the entries `f` of the values -/
def Entrywise (f : ℂ → ℂ) (M : Mat Cx) (N : Mat ℂ) : Prop := N.r = M.r ∧ N.c = M.c ∧ ∀ i < M.r, ∀ j < M.c, N.e i j = f (M.e i j).val

theorem elementWiseE_some {f : Cx → Option ℂ} {M : Mat Cx} {N : Mat ℂ} (h : elementWiseE f M = some N) :
    N.r = M.r ∧ N.c = M.c ∧ ∀ i < M.r, ∀ j < M.c, f (M.e i j) = some (N.e i j) := by
  unfold elementWiseE at h
  split at h
  · rename_i k
    injection h with h
    subst h
    refine ⟨rfl, rfl, fun i hi j hj => ?_⟩
    rw [List.all_eq_true] at k
    have k1 := k i (List.mem_range.mpr hi)
    rw [List.all_eq_true] at k1
    obtain ⟨z, hz⟩ := Option.isSome_iff_exists.mp (k1 j (List.mem_range.mpr hj))
    change f (M.e i j) = some ((f (M.e i j)).getD 0)
    rw [hz]; rfl
  · exact nomatch h

theorem elementWiseE_none {f : Cx → Option ℂ} {M : Mat Cx} : elementWiseE f M = none ↔ ∃ i < M.r, ∃ j < M.c, f (M.e i j) = none := by
  unfold elementWiseE
  split
  · rename_i k
    refine ⟨nofun, fun ⟨i, hi, j, hj, h⟩ => ?_⟩
    rw [List.all_eq_true] at k
    have k1 := k i (List.mem_range.mpr hi)
    rw [List.all_eq_true] at k1
    have := k1 j (List.mem_range.mpr hj)
    rw [h] at this
    exact absurd this (by simp)
  · rename_i k
    refine ⟨fun _ => ?_, fun _ => rfl⟩
    simp only [List.all_eq_true, List.mem_range, not_forall] at k
    obtain ⟨i, hi, j, hj, h⟩ := k
    exact ⟨i, hi, j, hj, by simpa using h⟩

/-- **C106** `real` is the matrix of the real parts, `conjugate` the matrix of the conjugates, whatever the entries are -/
theorem C106_real {M : Mat Cx} {N : Mat ℂ} : (matReal M = some N → Entrywise (fun z => z.re) M N) ∧ (matConj M = some N → Entrywise star M N) := by
  constructor
  all_goals
    intro h
    obtain ⟨h1, h2, h3⟩ := elementWiseE_some h
    refine ⟨h1, h2, fun i hi j hj => ?_⟩
    have := h3 i hi j hj
    cases hM : M.e i j with
    | exact z => rw [hM] at this; exact (Option.some.inj this).symm
    | symbolic z => rw [hM] at this; exact (Option.some.inj this).symm
    | other => rw [hM] at this; exact nomatch this
    | conjugate z =>
      rw [hM] at this
      rw [← Option.some.inj this]
      first
      | rfl
      | (change (star z + z) / 2 = ((z.re : ℝ) : ℂ)
         rw [add_comm, show z + star z = ((2 * z.re : ℝ) : ℂ) from Complex.add_conj z]
         push_cast
         ring)

/-- **C106** `imag` is the matrix of the imaginary parts, if all entries have an attribute for it (numbers, QNET's scalars, SymPy's expressions) -/
theorem C106_imag_partial {M : Mat Cx} {N : Mat ℂ} (h : matImag M = some N) (hM : ∀ i < M.r, ∀ j < M.c, ∀ z, M.e i j ≠ .conjugate z) :
    Entrywise (fun z => z.im) M N := by
  obtain ⟨h1, h2, h3⟩ := elementWiseE_some h
  refine ⟨h1, h2, fun i hi j hj => ?_⟩
  have := h3 i hi j hj
  have hc := hM i hi j hj
  cases hM : M.e i j with
  | exact z => rw [hM] at this; exact (Option.some.inj this).symm
  | symbolic z => rw [hM] at this; exact (Option.some.inj this).symm
  | other => rw [hM] at this; exact nomatch this
  | conjugate z => exact absurd hM (hc z)

/-- **C106** with these entries the matrix is the sum of its real part and of `I` times its imaginary part -/
theorem C106_sum_partial {M : Mat Cx} {R J : Mat ℂ} (hR : matReal M = some R) (hJ : matImag M = some J) (hM : ∀ i < M.r, ∀ j < M.c, ∀ z, M.e i j ≠ .conjugate z) :
    ∀ i < M.r, ∀ j < M.c, R.e i j + I * J.e i j = (M.e i j).val := by
  intro i hi j hj
  rw [(C106_real.1 hR).2.2 i hi j hj, (C106_imag_partial hJ hM).2.2 i hi j hj, mul_comm]
  exact Complex.re_add_im _

/-- **C106** refuted: for entries that have only a conjugate the imaginary part has the wrong sign -/
theorem C106_refuted_imag {M : Mat Cx} {N : Mat ℂ} (h : matImag M = some N) {i j : ℕ} (hi : i < M.r) (hj : j < M.c) {z : ℂ} (hz : M.e i j = .conjugate z) :
    N.e i j = -((z.im : ℝ) : ℂ) := by
  have := (elementWiseE_some h).2.2 i hi j hj
  rw [hz] at this
  rw [← Option.some.inj this]
  have e : star z - z = -(((2 * z.im : ℝ) : ℂ) * I) := by
    rw [← Complex.sub_conj z, neg_sub]; rfl
  rw [e]
  have hI : (I : ℂ) ≠ 0 := Complex.I_ne_zero
  push_cast
  rw [div_eq_iff (mul_ne_zero two_ne_zero hI)]
  ring

/-- **C106** NoConjugateMatrix is raised if and only if an entry has none of the attributes -/
theorem C106_error (M : Mat Cx) : (matReal M = none ↔ ∃ i < M.r, ∃ j < M.c, M.e i j = .other) ∧ (matImag M = none ↔ ∃ i < M.r, ∃ j < M.c, M.e i j = .other) ∧
    (matConj M = none ↔ ∃ i < M.r, ∃ j < M.c, M.e i j = .other) := by
  have k : ∀ f : Cx → Option ℂ, (∀ e, f e = none ↔ e = .other) → (elementWiseE f M = none ↔ ∃ i < M.r, ∃ j < M.c, M.e i j = .other) := by
    intro f hf
    rw [elementWiseE_none]
    simp only [hf]
  refine ⟨k _ ?_, k _ ?_, k _ ?_⟩ <;> (intro e; cases e <;> simp [reEntry, imEntry, conjEntry])

/-- the hypotheses hold for a matrix with a number and a symbol -/
example : ∃ M : Mat Cx, M.r = 1 ∧ M.c = 2 ∧ (M.e 0 0).val = 1 + 2 * I ∧ (∀ i < M.r, ∀ j < M.c, ∀ z, M.e i j ≠ .conjugate z) ∧ matReal M ≠ none ∧ matImag M ≠ none := by
  refine ⟨⟨1, 2, fun _ j => if j = 0 then .exact (1 + 2 * I) else .symbolic I⟩, rfl, rfl, rfl, ?_, ?_, ?_⟩
  · intro i _ j _ z
    dsimp only
    split <;> exact nofun
  · rw [Ne, (C106_error _).1]
    rintro ⟨i, _, j, _, h⟩
    dsimp only at h
    split at h <;> exact nomatch h
  · rw [Ne, (C106_error _).2.1]
    rintro ⟨i, _, j, _, h⟩
    dsimp only at h
    split at h <;> exact nomatch h

end QNET.Mat
