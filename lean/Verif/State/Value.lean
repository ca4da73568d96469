import Verif.State.Model
import Verif.State.Spec
import Verif.Engine.Lemmas
import Verif.Indexed.Sem
import Mathlib.Algebra.BigOperators.Group.List.Basic

/-! # The value of expressions of the state algebra -/

namespace QNET.State

open QNET.Perm (Res Err)
open QNET.Trace (Cfg Mat ActsOn embed embed_actsOn actsOn_zero actsOn_one)
open Matrix

/-- An interpretation: wave functions and operators for the symbols, on the space of the symbol; coherent states and displacement
operators. `ref` is an arbitrary reference configuration (its existence means that every local space has a positive dimension).
`norm`: QNET takes every `KetSymbol` to be normalised (comment in `_rules.py` lines 734-737). -/
structure Interp (ι : Type) [Fintype ι] [DecidableEq ι] (d : ι → ℕ) (K : Type) [CommRing K] [StarRing K] where
  ref : Cfg d
  ket : ℕ → Finset ι → Vec d K
  ket_dep : ∀ a s, DependsOn s (ket a s)
  norm : ∀ a s, inner s ref (ket a s) (ket a s) = 1
  op : ℕ → Finset ι → Mat d K
  op_acts : ∀ a s, ActsOn s (op a s)
  loc : ℕ → ι → Mat d K
  loc_acts : ∀ a l, ActsOn {l} (loc a l)
  disp : K → ι → Mat d K
  disp_acts : ∀ u l, ActsOn {l} (disp u l)
  disp_star : ∀ u l, (disp u l)ᴴ = disp (-u) l

variable {ι K : Type} [Fintype ι] [DecidableEq ι] [CommRing K] [StarRing K] {d : ι → ℕ} (I : Interp ι d K)

mutual
/-- the number that a scalar denotes -/
def Sc.ev : Sc ι K → K
  | .val k => k
  | .braket a b => inner a.space I.ref a.ev b.ev
  | .mul a b => a.ev * b.ev
  | .conj a => star a.ev
/-- the state that a ket denotes; a coherent state is a displaced ground state -/
def Ket.ev : Ket ι K → Vec d K
  | .zero => 0
  | .triv => 1
  | .sym a s => I.ket a s
  | .basis n l => basisVec n l
  | .coh u l => I.disp u.ev l *ᵥ basisVec 0 l
  | .scal c t => c.ev • t.ev
  | .plus l => (evL l).sum
  | .tensor l => (evL l).prod
  | .opKet A t => A.ev *ᵥ t.ev
/-- the operator that an operator expression denotes -/
def Op.ev : Op ι K → Mat d K
  | .zero => 0
  | .one => 1
  | .sym a s => I.op a s
  | .loc a l => I.loc a l
  | .sigma j k l => embed l (Matrix.of fun a b => if (a : ℕ) = j ∧ (b : ℕ) = k then 1 else 0)
  | .disp u l => I.disp u.ev l
  | .times l => (opEvL l).prod
  | .plus l => (opEvL l).sum
  | .scal c t => c.ev • t.ev
  | .adj t => (t.ev)ᴴ
  | .ketBra a b => outer a.space a.ev b.ev
/-- values of a list of kets -/
def evL : List (Ket ι K) → List (Vec d K)
  | [] => []
  | t :: ts => t.ev :: evL ts
/-- values of a list of operators -/
def opEvL : List (Op ι K) → List (Mat d K)
  | [] => []
  | t :: ts => t.ev :: opEvL ts
end

variable [DecidableEq K]

/-- the summands are not zero and have the same space -/
def sameSpaces (l : List (Ket ι K)) : Bool := l.all (fun t => !t.isZero && decide (t.space = spaceL l))

mutual
/-- Expressions that the constructors of QNET accept (`Sc.wf`, `Ket.wf`, `Op.wf`): the indices of basis states and transition
operators are levels of their space, the factors of a tensor product are not zero and have disjoint spaces, the space of an operator that
is applied to a ket is part of that of the ket, the summands of a sum of kets are not zero and have the same space, the two states of an inner or outer product have the same space. Scalar multiples have no
zero coefficient or ket (`create` never returns any). -/
def Sc.wf (d : ι → ℕ) : Sc ι K → Prop
  | .val _ => True
  | .braket a b => a.wf d ∧ b.wf d ∧ sameSpace a b = true
  | .mul a b => a.wf d ∧ b.wf d
  | .conj a => a.wf d
/-- well-formed kets -/
def Ket.wf (d : ι → ℕ) : Ket ι K → Prop
  | .zero => True
  | .triv => True
  | .sym _ _ => True
  | .basis n l => n < d l
  | .coh u _ => u.wf d
  | .scal c t => c.wf d ∧ t.wf d ∧ c.isZero = false ∧ t.isZero = false
  | .plus l => ketsWf d l ∧ sameSpaces l = true
  | .tensor l => ketsWf d l ∧ l.any Ket.isZero = false ∧ disjointFrom ∅ l = true
  | .opKet A t => A.wf d ∧ t.wf d ∧ A.space ⊆ t.space ∧ t.isZero = false
/-- well-formed operators -/
def Op.wf (d : ι → ℕ) : Op ι K → Prop
  | .zero => True
  | .one => True
  | .sym _ _ => True
  | .loc _ _ => True
  | .sigma j k l => j < d l ∧ k < d l
  | .disp u _ => u.wf d
  | .times l => opsWf d l
  | .plus l => opsWf d l
  | .scal c t => c.wf d ∧ t.wf d
  | .adj t => t.wf d
  | .ketBra a b => a.wf d ∧ b.wf d ∧ sameSpace a b = true
/-- lists of well-formed kets -/
def ketsWf (d : ι → ℕ) : List (Ket ι K) → Prop
  | [] => True
  | t :: ts => t.wf d ∧ ketsWf d ts
/-- lists of well-formed operators -/
def opsWf (d : ι → ℕ) : List (Op ι K) → Prop
  | [] => True
  | t :: ts => t.wf d ∧ opsWf d ts
end

omit [DecidableEq K] in
theorem evL_eq (l : List (Ket ι K)) : evL I l = l.map (Ket.ev I) := by
  induction l with
  | nil => rw [evL]; rfl
  | cons a l ih => rw [evL, ih]; rfl

omit [DecidableEq K] in
theorem opEvL_eq (l : List (Op ι K)) : opEvL I l = l.map (Op.ev I) := by
  induction l with
  | nil => rw [opEvL]; rfl
  | cons a l ih => rw [opEvL, ih]; rfl

theorem ketsWf_iff (l : List (Ket ι K)) : ketsWf d l ↔ ∀ t ∈ l, t.wf d := by
  induction l with
  | nil => rw [ketsWf]; simp
  | cons a l ih => rw [ketsWf, ih]; simp

theorem opsWf_iff (l : List (Op ι K)) : opsWf d l ↔ ∀ t ∈ l, t.wf d := by
  induction l with
  | nil => rw [opsWf]; simp
  | cons a l ih => rw [opsWf, ih]; simp

omit [CommRing K] [StarRing K] [DecidableEq K] in
theorem space_sub_spaceL {l : List (Ket ι K)} {t : Ket ι K} (h : t ∈ l) : t.space ⊆ spaceL l := by
  induction l with
  | nil => cases h
  | cons a l ih =>
    rw [spaceL]
    rcases List.mem_cons.mp h with rfl | h
    · exact Finset.subset_union_left
    · exact (ih h).trans Finset.subset_union_right

omit [CommRing K] [StarRing K] [DecidableEq K] in
theorem opSpace_sub_opSpaceL {l : List (Op ι K)} {t : Op ι K} (h : t ∈ l) : t.space ⊆ opSpaceL l := by
  induction l with
  | nil => cases h
  | cons a l ih =>
    rw [opSpaceL]
    rcases List.mem_cons.mp h with rfl | h
    · exact Finset.subset_union_left
    · exact (ih h).trans Finset.subset_union_right

omit [CommRing K] [StarRing K] [DecidableEq K] in
theorem sameSpace_cases {a b : Ket ι K} (h : sameSpace a b = true) : a = .zero ∨ b = .zero ∨ a.space = b.space := by
  cases a <;> cases b <;> simp_all [sameSpace]

mutual
/-- the value of a ket depends on the levels of its space only -/
theorem Ket.ev_dep : ∀ t : Ket ι K, t.wf d → DependsOn t.space (t.ev I)
  | .zero, _ => by rw [Ket.ev]; exact dependsOn_zero _
  | .triv, _ => by rw [Ket.ev]; exact dependsOn_one _
  | .sym a s, _ => by rw [Ket.ev, Ket.space]; exact I.ket_dep a s
  | .basis n l, _ => by rw [Ket.ev, Ket.space]; exact basisVec_dep n l
  | .coh u l, _ => by
    rw [Ket.ev, Ket.space]
    exact DependsOn.mulVec (I.disp_acts _ l) (basisVec_dep 0 l) (Finset.Subset.refl _)
  | .scal c t, h => by
    rw [Ket.wf] at h
    rw [Ket.ev, Ket.space]
    exact (Ket.ev_dep t h.2.1).smul _
  | .plus l, h => by
    rw [Ket.wf] at h
    rw [Ket.ev, Ket.space]
    exact (evL_dep l h.1).1
  | .tensor l, h => by
    rw [Ket.wf] at h
    rw [Ket.ev, Ket.space]
    exact (evL_dep l h.1).2
  | .opKet A t, h => by
    rw [Ket.wf] at h
    rw [Ket.ev, Ket.space]
    exact DependsOn.mulVec (Op.ev_acts A h.1) (Ket.ev_dep t h.2.1) h.2.2.1
/-- the value of an operator acts on its space only -/
theorem Op.ev_acts : ∀ A : Op ι K, A.wf d → ActsOn A.space (A.ev I)
  | .zero, _ => by rw [Op.ev]; exact actsOn_zero _
  | .one, _ => by rw [Op.ev]; exact actsOn_one _
  | .sym a s, _ => by rw [Op.ev, Op.space]; exact I.op_acts a s
  | .loc a l, _ => by rw [Op.ev, Op.space]; exact I.loc_acts a l
  | .sigma j k l, _ => by rw [Op.ev, Op.space]; exact embed_actsOn l _
  | .disp u l, _ => by rw [Op.ev, Op.space]; exact I.disp_acts _ l
  | .times l, h => by
    rw [Op.wf] at h
    rw [Op.ev, Op.space]
    exact (opEvL_acts l h).2
  | .plus l, h => by
    rw [Op.wf] at h
    rw [Op.ev, Op.space]
    exact (opEvL_acts l h).1
  | .scal c t, h => by
    rw [Op.wf] at h
    rw [Op.ev, Op.space]
    exact (Op.ev_acts t h.2).smul _
  | .adj t, h => by
    rw [Op.wf] at h
    rw [Op.ev, Op.space]
    exact (Op.ev_acts t h).star
  | .ketBra a b, h => by
    rw [Op.wf] at h
    rw [Op.ev, Op.space]
    rcases sameSpace_cases h.2.2 with rfl | rfl | e
    · rw [Ket.ev, outer_zero_left]; exact actsOn_zero _
    · rw [show (Ket.zero : Ket ι K).ev I = 0 by rw [Ket.ev], outer_zero_right]; exact actsOn_zero _
    · exact outer_actsOn (Ket.ev_dep a h.1) (e ▸ Ket.ev_dep b h.2.1)
/-- sums and pointwise products of kets -/
theorem evL_dep : ∀ l : List (Ket ι K), ketsWf d l → DependsOn (spaceL l) (evL I l).sum ∧ DependsOn (spaceL l) (evL I l).prod
  | [], _ => by
    simp only [evL, List.sum_nil, List.prod_nil]
    exact ⟨dependsOn_zero _, dependsOn_one _⟩
  | t :: ts, h => by
    rw [ketsWf] at h
    have h1 := (Ket.ev_dep t h.1).mono (T := spaceL (t :: ts)) (by rw [spaceL]; exact Finset.subset_union_left)
    have h2 := (evL_dep ts h.2).1.mono (T := spaceL (t :: ts)) (by rw [spaceL]; exact Finset.subset_union_right)
    have h3 := (evL_dep ts h.2).2.mono (T := spaceL (t :: ts)) (by rw [spaceL]; exact Finset.subset_union_right)
    simp only [evL, List.sum_cons, List.prod_cons]
    exact ⟨h1.add h2, h1.mul h3⟩
/-- sums and products of operators -/
theorem opEvL_acts : ∀ l : List (Op ι K), opsWf d l → ActsOn (opSpaceL l) (opEvL I l).sum ∧ ActsOn (opSpaceL l) (opEvL I l).prod
  | [], _ => by
    simp only [opEvL, List.sum_nil, List.prod_nil]
    exact ⟨actsOn_zero _, actsOn_one _⟩
  | t :: ts, h => by
    rw [opsWf] at h
    have h1 := (Op.ev_acts t h.1).mono (T := opSpaceL (t :: ts)) (by rw [opSpaceL]; exact Finset.subset_union_left)
    have h2 := (opEvL_acts ts h.2).1.mono (T := opSpaceL (t :: ts)) (by rw [opSpaceL]; exact Finset.subset_union_right)
    have h3 := (opEvL_acts ts h.2).2.mono (T := opSpaceL (t :: ts)) (by rw [opSpaceL]; exact Finset.subset_union_right)
    simp only [opEvL, List.sum_cons, List.prod_cons]
    exact ⟨h1.add h2, h1.mul h3⟩
end

/-- What is assumed of the other parts of the code: they return well-formed expressions of the right value. A product of scalars is
not 0 unless a factor is; sorting permutes; the rules for local operators and local kets are identities (C37, C38). -/
structure Mk.Sound (mk : Mk ι K) : Prop where
  scMul : ∀ u v w, mk.scMul u v = .ok w → u.wf d → v.wf d → w.wf d ∧ w.ev I = u.ev I * v.ev I
  scMul_zero : ∀ u v w, mk.scMul u v = .ok w → w.isZero = true → u.isZero = true ∨ v.isZero = true
  scConj : ∀ u w, mk.scConj u = .ok w → u.wf d → w.wf d ∧ w.ev I = star (u.ev I)
  opTimes : ∀ l A, mk.opTimes l = .ok A → (∀ o ∈ l, o.wf d) → A.wf d ∧ A.ev I = (l.map (Op.ev I)).prod
  opScal : ∀ u A B, mk.opScal u A = .ok B → u.wf d → A.wf d → B.wf d ∧ B.ev I = u.ev I • A.ev I
  opAdj : ∀ A B, mk.opAdj A = .ok B → A.wf d → B.wf d ∧ B.ev I = (A.ev I)ᴴ
  sort : ∀ l, (mk.sort l).Perm l
  rule : ∀ A t r, mk.rule A t = some (.ok r) → A.wf d → t.wf d →
    r.wf d ∧ r.ev I = A.ev I *ᵥ t.ev I ∧ (r = .zero ∨ r.space = t.space)

/-- a product of operators is never simplified to an operator on a smaller space -/
def Mk.KeepsSpace (mk : Mk ι K) : Prop := ∀ l A, mk.opTimes l = .ok A → A.space = opSpaceL l

/-- either the separation of products is checked (which the code does not do), or products keep their space -/
def Mk.Safe (mk : Mk ι K) : Prop := mk.strict = true ∨ mk.KeepsSpace

end QNET.State
