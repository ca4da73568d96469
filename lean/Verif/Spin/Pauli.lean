import Verif.Hilbert.Basis
import Verif.Spin.Thm
import Mathlib.Algebra.Star.Module
import Mathlib.LinearAlgebra.Matrix.ConjTranspose
import Mathlib.Data.Matrix.Basis

/-!
# C93: Pauli operators

`src/qnet/algebra/library/pauli_matrices.py`. Spaces and labels are those of `Verif/Hilbert/Basis.lean` (without symbolic labels). The
operators are given as linear combinations of `LocalSigma` operators, by the levels that these connect, before sums are simplified
(which preserves the value, `C29`).
-/

namespace QNET.Pauli

open QNET.Hilbert QNET.Perm
open QNET.Order (Str)

/-! ## the code -/

/-- `states` after `_get_pauli_args` (pauli_matrices.py lines 11-19) -/
def pauliStates (l : Loc) : Option (List LabelIdx) → List LabelIdx
  | some s => s
  | none => match l.basis with
    | some b => (b.take 2).map .label
    | none => [.index 0, .index 1]

/-- `g, e = states` (pauli_matrices.py lines 45, 66, 86): `ValueError` unless there are exactly two -/
def unpack2 : List LabelIdx → Res (LabelIdx × LabelIdx)
  | [g, e] => .ok (g, e)
  | _ => .error .valueError

/-- the level of a label or index in `LocalSigma(j, k, hs)`: the checks and the normalisation to labels in the constructor
(operator_algebra.py lines 356-367) and `index_j`, `index_k` (lines 374-400) -/
def level (l : Loc) (x : LabelIdx) : Res ℤ :=
  unpack l x >>= fun p =>
  match l.basis with
  | none => .ok p.2
  | some b => match indexOf? b p.1 with
    | some i => .ok i
    | none => .error .valueError

/-- a linear combination of operators `|j><k|` -/
abbrev Comb := List (ℂ × ℤ × ℤ)

/-- the levels `g`, `e`; both `LocalSigma.create` calls check both labels -/
def levels (l : Loc) (s : Option (List LabelIdx)) : Res (ℤ × ℤ) :=
  unpack2 (pauliStates l s) >>= fun p => level l p.1 >>= fun g => level l p.2 >>= fun e => .ok (g, e)

/-- `PauliX`, pauli_matrices.py lines 22-48 -/
noncomputable def pauliX (l : Loc) (s : Option (List LabelIdx)) : Res Comb :=
  levels l s >>= fun p => .ok [(1, p.1, p.2), (1, p.2, p.1)]

/-- `PauliY`, pauli_matrices.py lines 51-68: `I * (-LocalSigma(g, e) + LocalSigma(e, g))` -/
noncomputable def pauliY (l : Loc) (s : Option (List LabelIdx)) : Res Comb :=
  levels l s >>= fun p => .ok [(Complex.I * (-1), p.1, p.2), (Complex.I * 1, p.2, p.1)]

/-- `PauliZ`, pauli_matrices.py lines 71-88; `LocalProjector(j)` is `LocalSigma(j, j)` (operator_algebra.py lines 442-455) -/
noncomputable def pauliZ (l : Loc) (s : Option (List LabelIdx)) : Res Comb :=
  levels l s >>= fun p => .ok [(1, p.1, p.1), (-1, p.2, p.2)]

/-! ## specification -/

section spec
variable {A : Type} [Ring A] [StarRing A] [Algebra ℂ A] [StarModule ℂ A]

/-- the operators `|i><j|` of the space in some *-algebra -/
structure Units (l : Loc) (A : Type) [Ring A] [StarRing A] [Algebra ℂ A] where
  E : ℤ → ℤ → A
  mul : ∀ i j k m, l.HasLevel i → l.HasLevel j → l.HasLevel k → l.HasLevel m → E i j * E k m = if j = k then E i m else 0
  star_eq : ∀ i j, l.HasLevel i → l.HasLevel j → star (E i j) = E j i

/-- the operator denoted by a linear combination -/
noncomputable def value {l : Loc} (U : Units l A) (c : Comb) : A := (c.map fun t => t.1 • U.E t.2.1 t.2.2).sum

/-- `x`, `y`, `z` satisfy the relations of the Pauli matrices on the range of the projector `p` -/
structure IsPauli (p x y z : A) : Prop where
  px : p * x = x ∧ x * p = x
  py : p * y = y ∧ y * p = y
  pz : p * z = z ∧ z * p = z
  hermitian : star p = p ∧ star x = x ∧ star y = y ∧ star z = z
  square : p * p = p ∧ x * x = p ∧ y * y = p ∧ z * z = p
  xy : x * y = Complex.I • z ∧ y * x = -(Complex.I • z)
  yz : y * z = Complex.I • x ∧ z * y = -(Complex.I • x)
  zx : z * x = Complex.I • y ∧ x * z = -(Complex.I • y)

end spec

/-! ## proofs -/

theorem level_ok {l : Loc} (hw : l.WF) {x : LabelIdx} {i : ℤ} (h : level l x = .ok i) : l.HasLevel i := by
  unfold level at h
  cases hu : unpack l x with
  | error e => rw [hu] at h; cases h
  | ok p =>
    rw [hu] at h
    dsimp only [bind, Except.bind] at h
    cases hb : l.basis with
    | none =>
      rw [hb] at h
      injection h with h
      rw [← h]
      exact (unpack_spec hw hu).1
    | some b =>
      rw [hb] at h
      dsimp only at h
      split at h
      · next i' hi =>
        injection h with h
        have h1 := indexOf?_some hi
        unfold Loc.WF at hw
        refine ⟨by omega, fun d hd => ?_⟩
        rw [hw, hb] at hd
        injection hd with hd
        have := h1.2.1
        omega
      · cases h

theorem levels_ok {l : Loc} (hw : l.WF) {s : Option (List LabelIdx)} {g e : ℤ} (h : levels l s = .ok (g, e)) : l.HasLevel g ∧ l.HasLevel e := by
  unfold levels at h
  cases h1 : unpack2 (pauliStates l s) with
  | error _ => rw [h1] at h; cases h
  | ok p =>
    rw [h1] at h
    change (level l p.1 >>= fun g => level l p.2 >>= fun e => Except.ok (g, e)) = _ at h
    cases h2 : level l p.1 with
    | error _ => rw [h2] at h; cases h
    | ok a =>
      rw [h2] at h
      change (level l p.2 >>= fun e => Except.ok (a, e)) = _ at h
      cases h3 : level l p.2 with
      | error _ => rw [h3] at h; cases h
      | ok b =>
        rw [h3] at h
        change Except.ok (a, b) = _ at h
        injection h with h
        injection h with ha hb
        subst ha hb
        exact ⟨level_ok hw h2, level_ok hw h3⟩

section main
variable {A : Type} [Ring A] [StarRing A] [Algebra ℂ A] [StarModule ℂ A]

/-- C93: `PauliX`, `PauliY` and `PauliZ` for the same space and states are Hermitian operators that satisfy the relations of the Pauli
matrices on the two levels and vanish on the others, provided the states are two different levels; and each of them succeeds if and only if
the others do. -/
theorem C93_relations_partial {l : Loc} (hw : l.WF) (U : Units l A) {s : Option (List LabelIdx)} {g e : ℤ} (h : levels l s = .ok (g, e)) (hge : g ≠ e) :
    ∃ X Y Z, pauliX l s = .ok X ∧ pauliY l s = .ok Y ∧ pauliZ l s = .ok Z ∧
      IsPauli (U.E g g + U.E e e) (value U X) (value U Y) (value U Z) ∧
      value U X = U.E g e + U.E e g ∧ value U Z = U.E g g - U.E e e := by
  obtain ⟨hg, he⟩ := levels_ok hw h
  refine ⟨_, _, _, by unfold pauliX; rw [h]; rfl, by unfold pauliY; rw [h]; rfl, by unfold pauliZ; rw [h]; rfl, ?_, ?_, ?_⟩
  · have key : ∀ i j k m : ℤ, (i = g ∨ i = e) → (j = g ∨ j = e) → (k = g ∨ k = e) → (m = g ∨ m = e) →
        U.E i j * U.E k m = if j = k then U.E i m else 0 := by
      intro i j k m hi hj hk hm
      apply U.mul
      · rcases hi with rfl | rfl <;> assumption
      · rcases hj with rfl | rfl <;> assumption
      · rcases hk with rfl | rfl <;> assumption
      · rcases hm with rfl | rfl <;> assumption
    have sgg : star (U.E g g) = U.E g g := U.star_eq _ _ hg hg
    have sge : star (U.E g e) = U.E e g := U.star_eq _ _ hg he
    have seg : star (U.E e g) = U.E g e := U.star_eq _ _ he hg
    have see : star (U.E e e) = U.E e e := U.star_eq _ _ he he
    have heg : e ≠ g := hge.symm
    have II : Complex.I * Complex.I = -1 := Complex.I_mul_I
    simp only [value, List.map_cons, List.map_nil, List.sum_cons, List.sum_nil, add_zero, one_smul]
    constructor
    all_goals
      simp only [add_mul, mul_add, smul_mul_assoc, mul_smul_comm, key, true_or, or_true, if_true, hge, heg, if_false, smul_zero, add_zero, zero_add,
        star_add, star_smul, sgg, sge, seg, see, smul_add, smul_smul, RCLike.star_def, Complex.conj_I, map_mul, map_neg, map_one, mul_one, mul_neg, neg_neg,
        neg_mul, II, one_smul, neg_smul, star_neg]
    all_goals (repeat' apply And.intro)
    all_goals first | trivial | (match_scalars <;> first | ring1 | linear_combination II | linear_combination -II)
  · simp [value]
  · simp [value, sub_eq_add_neg]

/-- C93: without `states`, in a space without a basis, the operators act on the levels 0 and 1. -/
theorem C93_default_numbered {l : Loc} (hb : l.basis = none) : levels l none = .ok (0, 1) := by
  simp only [levels, pauliStates, hb, unpack2, level, unpack, bind, Except.bind]
  rfl

/-- C93: without `states`, in a space whose basis begins with two different labels, the operators act on the levels 0 and 1 (the two lowest). -/
theorem C93_default_labels {l : Loc} {a b : Str} {r : List Str} (hb : l.basis = some (a :: b :: r)) (hab : a ≠ b) :
    levels l none = .ok (0, 1) := by
  have h1 : indexOf? (a :: b :: r) a = some 0 := by simp [indexOf?, List.idxOf?, List.findIdx?_cons]
  have h2 : indexOf? (a :: b :: r) b = some 1 := by simp [indexOf?, List.idxOf?, List.findIdx?_cons, hab]
  simp only [levels, pauliStates, hb, unpack2, level, unpack, bind, Except.bind, List.take, List.map, h1, h2]
  rfl

/-- C93: a space with a single level has no Pauli operators: `ValueError`. -/
theorem C93_single_level {l : Loc} {a : Str} (hb : l.basis = some [a]) :
    pauliX l none = .error .valueError ∧ pauliY l none = .error .valueError ∧ pauliZ l none = .error .valueError := by
  simp [pauliX, pauliY, pauliZ, levels, pauliStates, hb, unpack2, bind, Except.bind]

/-- C93: `states` must be two labels or indices of the space. -/
theorem C93_states {l : Loc} (s : List LabelIdx) (g e : ℤ) : levels l (some s) = .ok (g, e) ↔ ∃ a b, s = [a, b] ∧ level l a = .ok g ∧ level l b = .ok e := by
  constructor
  · intro h
    unfold levels pauliStates at h
    match s, h with
    | [a, b], h =>
      simp only [unpack2, bind, Except.bind] at h
      cases h1 : level l a with
      | error _ => rw [h1] at h; cases h
      | ok i =>
        rw [h1] at h
        dsimp only at h
        cases h2 : level l b with
        | error _ => rw [h2] at h; cases h
        | ok j =>
          rw [h2] at h
          dsimp only at h
          injection h with h
          injection h with h3 h4
          exact ⟨a, b, rfl, by rw [h1, h3], by rw [h2, h4]⟩
    | [], h => cases h
    | [_], h => cases h
    | _ :: _ :: _ :: _, h => cases h
  · rintro ⟨a, b, rfl, h1, h2⟩
    simp only [levels, pauliStates, unpack2, bind, Except.bind, h1, h2]

/-- the level of an index of a space without basis, or of a label of a basis, is that index or the position of the label -/
theorem C93_level {l : Loc} (hw : l.WF) : (∀ i : ℤ, l.basis = none → 0 ≤ i → level l (.index i) = .ok i) ∧
    (∀ (b : List Str) (i : ℕ) (s : Str), l.basis = some b → b.Nodup → b[i]? = some s →
      level l (.label s) = .ok i ∧ level l (.index i) = .ok i) := by
  constructor
  · intro i hb hi
    have : ¬ i < 0 := by omega
    simp only [level, unpack, hb, this, if_false, bind, Except.bind]
  · intro b i s hb hn hs
    have hx : indexOf? b s = some i := by
      have hm : s ∈ b := List.mem_of_getElem? hs
      obtain ⟨j, hj⟩ := indexOf?_none hm
      have h1 := indexOf?_some hj
      have hi := (List.getElem?_eq_some_iff.mp hs)
      have hj' := (List.getElem?_eq_some_iff.mp h1.1)
      obtain ⟨hi1, hi2⟩ := hi
      obtain ⟨hj1, hj2⟩ := hj'
      have : i = j := (List.Nodup.getElem_inj_iff hn).mp (hi2.trans hj2.symm)
      rw [this]; exact hj
    have hd : l.dim = some b.length := by rw [hw, hb]; rfl
    constructor
    · simp only [level, unpack, hb, hx, bind, Except.bind]
    · have hi := (List.getElem?_eq_some_iff.mp hs).1
      have h1 : ¬ ((i : ℤ) < 0) := by omega
      have h2 : ¬ ((i : ℤ) ≥ (b.length : ℕ)) := by omega
      simp only [level, unpack, hb, hd, h1, h2, if_false, Int.toNat_natCast, hs, bind, Except.bind, hx]

/-- C93 refuted: the code does not check that the two states are different: `PauliX(hs, states=(g, g))` is accepted and its value is twice a projector,
`PauliZ` is zero. The relations then hold only if the projector vanishes. -/
theorem C93_refuted_same {l : Loc} (hw : l.WF) (U : Units l A) {s : Option (List LabelIdx)} {g : ℤ} (h : levels l s = .ok (g, g)) (h0 : U.E g g ≠ 0) :
    ∃ X Y Z, pauliX l s = .ok X ∧ pauliY l s = .ok Y ∧ pauliZ l s = .ok Z ∧ value U X = (2 : ℂ) • U.E g g ∧ value U Z = 0 ∧
      ∀ p, ¬ IsPauli p (value U X) (value U Y) (value U Z) := by
  refine ⟨_, _, _, by unfold pauliX; rw [h]; rfl, by unfold pauliY; rw [h]; rfl, by unfold pauliZ; rw [h]; rfl, ?_, ?_, ?_⟩
  · simp [value, two_smul]
  · simp [value]
  · intro p hp
    have h1 := hp.square.2.2.2
    have h2 := hp.px.1
    simp only [value, List.map_cons, List.map_nil, List.sum_cons, List.sum_nil, add_zero, one_smul, neg_smul, add_neg_cancel, mul_zero] at h1 h2
    rw [← h1, zero_mul, ← two_smul ℂ] at h2
    exact h0 (by simpa using h2.symm)

/-- the basis ('g', 'g') -/
example : levels ⟨['q'], some [['g'], ['g']], some 2, [], none⟩ none = .ok (0, 0) := by decide +kernel
example : levels ⟨['q'], some [['g'], ['e'], ['r']], some 3, [], none⟩ (some [.label ['r'], .index 1]) = .ok (2, 1) := by decide +kernel
example : levels ⟨['q'], none, none, [], none⟩ (some [.index 5, .index 5]) = .ok (5, 5) := by decide +kernel

end main

/-- the matrix `|i><j|` -/
def matE (d : ℕ) (i j : ℤ) : Matrix (Fin d) (Fin d) ℂ := Matrix.of fun a b => if (a.1 : ℤ) = i ∧ (b.1 : ℤ) = j then 1 else 0

theorem matE_apply (d : ℕ) (i j : ℤ) (a b : Fin d) : matE d i j a b = if (a.1 : ℤ) = i ∧ (b.1 : ℤ) = j then 1 else 0 := rfl

/-- not vacuous: the operators `|i><j|` of a space with `d` levels, as matrices -/
noncomputable def matUnits (l : Loc) (d : ℕ) (hd : l.dim = some d) : Units l (Matrix (Fin d) (Fin d) ℂ) where
  E := matE d
  mul i j k m _ hj _ _ := by
    obtain ⟨h1, h2⟩ := hj
    have h2 := h2 d hd
    ext a b
    rw [Matrix.mul_apply, Finset.sum_eq_single (⟨j.toNat, by omega⟩ : Fin d)]
    · have hj : ((j.toNat : ℕ) : ℤ) = j := by omega
      by_cases hjk : j = k
      · subst hjk; simp only [matE_apply, hj, and_true, true_and, if_true]; split_ifs <;> simp_all
      · simp [matE_apply, hj, hjk]
    · intro c _ hc
      have : ¬ ((c.1 : ℤ) = j) := fun h => hc (Fin.ext (by simp only; omega))
      simp [matE_apply, this]
    · intro h; exact absurd (Finset.mem_univ _) h
  star_eq i j _ _ := by
    ext a b
    rw [Matrix.star_apply]
    by_cases h : (b.1 : ℤ) = i ∧ (a.1 : ℤ) = j
    · simp [matE_apply, h]
    · have h' : ¬ ((a.1 : ℤ) = j ∧ (b.1 : ℤ) = i) := fun h1 => h ⟨h1.2, h1.1⟩
      simp [matE_apply, h, h']

/-- C93: on the two levels of a spin 1/2, where level 0 is "down", `PauliX` is `2 Jx = Jp + Jm`, `PauliZ` is `-2 Jz` and `PauliY` is
`-2 Jy = i (Jp - Jm)`: for these spaces the operators act in the basis (down, up), opposite to the usual convention. -/
theorem C93_spin_half {l : Loc} (hl : l.dim = some 2) {s : Option (List LabelIdx)} (h : levels l s = .ok (0, 1)) :
    ∃ X Y Z, pauliX l s = .ok X ∧ pauliY l s = .ok Y ∧ pauliZ l s = .ok Z ∧
      value (matUnits l 2 hl) X = Spin.specP 1 + Spin.specM 1 ∧
      value (matUnits l 2 hl) Y = Complex.I • (Spin.specP 1 - Spin.specM 1) ∧
      value (matUnits l 2 hl) Z = (-2 : ℂ) • Spin.specZ 1 := by
  refine ⟨_, _, _, by unfold pauliX; rw [h]; rfl, by unfold pauliY; rw [h]; rfl, by unfold pauliZ; rw [h]; rfl, ?_, ?_, ?_⟩
  all_goals
    ext a b
    fin_cases a <;> fin_cases b <;> simp [value, matUnits, matE_apply, Spin.specP, Spin.specM, Spin.specZ, Spin.ladder] <;> norm_num

/-- a three-level system -/
def tls : Loc := ⟨['q'], some [['g'], ['e'], ['r']], some 3, [], none⟩

/-- not vacuous: operators on the levels `r` and `e` -/
example : ∃ X Y Z, pauliX tls (some [.label ['r'], .index 1]) = .ok X ∧ pauliY tls (some [.label ['r'], .index 1]) = .ok Y ∧
    pauliZ tls (some [.label ['r'], .index 1]) = .ok Z ∧
    IsPauli (matE 3 2 2 + matE 3 1 1) (value (matUnits tls 3 rfl) X) (value (matUnits tls 3 rfl) Y) (value (matUnits tls 3 rfl) Z) ∧
    value (matUnits tls 3 rfl) X 2 1 = 1 := by
  have h : levels tls (some [.label ['r'], .index 1]) = .ok (2, 1) := by decide +kernel
  obtain ⟨X, Y, Z, h1, h2, h3, hp, h4, -⟩ := C93_relations_partial (l := tls) (show tls.WF from rfl) (matUnits tls 3 rfl) h (by decide)
  refine ⟨X, Y, Z, h1, h2, h3, hp, ?_⟩
  rw [h4]
  simp [matUnits, matE_apply]

end QNET.Pauli
