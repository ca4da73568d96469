import Verif.SLH.Dynamics
import Verif.QAlg.Thm29
import Mathlib.Analysis.SpecialFunctions.Trigonometric.Basic
import Mathlib.Analysis.SpecialFunctions.Complex.Circle

/-!
# Coherent drives (C55, C56)

`get_coeffs` (`src/qnet/algebra/core/operator_algebra.py` lines 888-929), `move_drive_to_H` (`src/qnet/algebra/core/circuit_algebra.py` lines
1576-1638), `Circuit.coherent_input` (lines 261-293, 570-571) and the components of `src/qnet/algebra/library/circuit_components.py`.
-/

namespace QNET.SLH

open Finset
open QNET.Perm (Res Err)
open QNET.QAlg (QX Ctx val SoundCtx coeffMap summandsOf mapVal)

variable {A : Type} [Ring A] [StarRing A] [Algebra ℂ A]

/-! ### Model -/

/-- `get_coeffs(expr)`, operator_algebra.py lines 906-916, for `epsilon = 0` (no coefficient has an absolute value less than 0): the operands of a
sum, or the expression itself, are split into coefficient and term, and coefficients of the same term are added up in a dictionary. -/
noncomputable def getCoeffs (e : QX ℂ) : List (QX ℂ × ℂ) := coeffMap (summandsOf e)

/-- `coeffs[t]` of the returned `defaultdict(int)` -/
noncomputable def coeffOf (m : List (QX ℂ × ℂ)) (t : QX ℂ) : ℂ := ((m.find? (fun tc => decide (tc.1 = t))).map (·.2)).getD 0

/-- One entry of `scalarcs`, circuit_algebra.py lines 1625-1629; `which` is already replaced by `[]` if it is `None` -/
noncomputable def driveCoeff (Γ : Ctx ℂ) (n : ℕ) (which : List ℕ) (jj : ℕ) (L : QX ℂ) : Res ℂ :=
  if which = [] ∨ jj ∈ which then QAlg.expand Γ n L >>= fun e => .ok (-coeffOf (getCoeffs e) .one)
  else .ok 0

/-- `scalarcs`, circuit_algebra.py lines 1624-1629; `jj` counts the channels -/
noncomputable def scalarcs (Γ : Ctx ℂ) (n : ℕ) (which : List ℕ) : ℕ → List (QX ℂ) → Res (List ℂ)
  | _, [] => .ok []
  | jj, L :: Ls => driveCoeff Γ n which jj L >>= fun c => scalarcs Γ n which (jj + 1) Ls >>= fun cs => .ok (c :: cs)

/-- `SLH(identity_matrix(cdim), scalarcs, 0)`, line 1633 -/
def driveTriple (cs : List ℂ) : SLH A := mk' cs.length (fun i j => if i = j then 1 else 0) (fun i => algebraMap ℂ A (cs[i]?.getD 0)) 0

open Classical in
/-- `move_drive_to_H(slh, which)`, lines 1576-1638; `Ls` are the entries of `slh.L` as expressions. Simplification: `expand` and `simplify_scalar` of
the result are omitted, as they do not change values. -/
noncomputable def moveDriveToH (Γ : Ctx ℂ) (n : ℕ) (a : SLH A) (Ls : List (QX ℂ)) (which : Option (List ℕ)) : Res (SLH A) :=
  scalarcs Γ n (which.getD []) 0 Ls >>= fun cs =>
  if ∀ c ∈ cs, c = 0 then .ok a else .ok (series (driveTriple cs) a)

/-- `CoherentDriveCC._toSLH`, circuit_components.py lines 43-46 -/
def coherentDrive (α : ℂ) : SLH A := mk' 1 (fun _ _ => 1) (fun _ => algebraMap ℂ A α) 0

/-- `PhaseCC._toSLH`, circuit_components.py lines 69-72; the phase is a number -/
noncomputable def phaseCC (φ : ℂ) : SLH A := mk' 1 (fun _ _ => algebraMap ℂ A (Complex.exp (Complex.I * φ))) (fun _ => 0) 0

/-- `Beamsplitter._toSLH`, circuit_components.py lines 133-138 -/
noncomputable def beamsplitter (θ : ℂ) : SLH A :=
  mk' 2 (fun i j => algebraMap ℂ A (if i = 0 then (if j = 0 then Complex.cos θ else -Complex.sin θ) else (if j = 0 then Complex.sin θ else Complex.cos θ)))
    (fun _ => 0) 0

/-- `Concatenation(*circuits).toSLH()`, circuit_algebra.py lines 1126-1132: `slh = operands[0].toSLH()` (`IndexError` without operands), then
`concatenate_slh` with the others. -/
def concatAll : List (SLH A) → Res (SLH A)
  | [] => .error .indexError
  | x :: l => .ok (l.foldl concat x)

open Classical in
/-- `SLH.coherent_input(*input_amps)`, lines 261-293 and 570-571; `WrongCDimError` is a subclass of `AlgebraError`. `circuit_identity(1)` has the triple
`passThrough 1` (line 1040). -/
noncomputable def coherentInput (a : SLH A) (amps : List ℂ) : Res (SLH A) :=
  if amps.length ≠ a.n then .error .algebraError
  else match amps with
    | [amp] => .ok (series a (coherentDrive amp))
    | amps => concatAll (amps.map (fun amp => if amp ≠ 0 then coherentDrive amp else passThrough 1)) >>= fun d => .ok (series a d)

/-- The checks of the constructor `SLH(S, L, H)`, lines 327-337, on the shapes of `S` and `L`. -/
def slhInit (S L : ℕ × ℕ) : Res Unit :=
  if S.1 ≠ L.1 then .error .valueError
  else if L.2 ≠ 1 then .error .valueError
  else .ok ()

/-- the shape of `Matrix([row, row, ...])` for rows of equal length (numpy) -/
def shape2 {α : Type} (rows : List (List α)) : ℕ × ℕ := (rows.length, (rows.head?.map List.length).getD 0)

/-- `_CircuitZero._toSLH`, line 1066: `SLH(Matrix([[]]), Matrix([[]]), 0)` -/
def circuitZeroToSLH : Res Unit := slhInit (shape2 ([[]] : List (List ℕ))) (shape2 ([[]] : List (List ℕ)))

/-! ### C55 -/

/-- the constant part of an expression: the sum of the coefficients of `IdentityOperator` in its expansion -/
theorem getCoeffs_split (ρ : ℕ → A) (e : QX ℂ) :
    val ρ e = algebraMap ℂ A (coeffOf (getCoeffs e) .one) + mapVal (val ρ) ((getCoeffs e).filter (fun tc => !decide (tc.1 = .one))) := by
  have h0 : mapVal (val ρ) (getCoeffs e) = val ρ e := by
    rw [getCoeffs, QAlg.coeffMap_val (QAlg.val_linear (ρ := ρ)), QAlg.summandsOf_val]
  have hd : ((getCoeffs e).map Prod.fst).Nodup := QAlg.coeffMap_nodup _
  rw [← h0]
  clear h0
  generalize getCoeffs e = m at hd
  induction m with
  | nil => simp [coeffOf, mapVal]
  | cons tc m ih =>
    obtain ⟨t, c⟩ := tc
    simp only [List.map_cons, List.nodup_cons] at hd
    have ih := ih hd.2
    by_cases ht : t = .one
    · subst ht
      have hnone : ∀ x ∈ m, decide (x.1 = QX.one) = false := by
        intro x hx
        rw [decide_eq_false_iff_not]
        intro h
        exact hd.1 (List.mem_map.mpr ⟨x, hx, h⟩)
      have : m.filter (fun tc => !decide (tc.1 = QX.one)) = m := by
        rw [List.filter_eq_self]
        intro x hx
        rw [hnone x hx]; rfl
      simp [coeffOf, mapVal, this, QAlg.val, Algebra.algebraMap_eq_smul_one]
    · have e1 : coeffOf ((t, c) :: m) .one = coeffOf m .one := by simp [coeffOf, ht]
      rw [e1]
      simp only [mapVal, List.map_cons, List.sum_cons, List.filter_cons, ht, decide_false, Bool.not_false, if_true] at ih ⊢
      rw [ih]
      abel

theorem star_algebraMap' [StarModule ℂ A] (w : ℂ) : star (algebraMap ℂ A w) = algebraMap ℂ A (star w) := by
  rw [Algebra.algebraMap_eq_smul_one, star_smul, star_one, Algebra.algebraMap_eq_smul_one]

/-- Shifting the coupling operators by numbers, together with the corresponding change of the Hamiltonian, does not change the equations of motion. -/
theorem shift_eom [StarModule ℂ A] {a b : SLH A} (w : ℕ → ℂ) (hn : b.n = a.n) (hL : ∀ k, k < a.n → b.L k = a.L k + algebraMap ℂ A (w k))
    (hH : b.H = a.H + imAdjoint (∑ k ∈ range a.n, star (w k) • a.L k)) (X : A) :
    masterEq b X = masterEq a X ∧ heisenberg b X = heisenberg a X := by
  have him : imAdjoint (∑ k ∈ range a.n, star (w k) • a.L k) = ∑ k ∈ range a.n, (Complex.I / 2) • (w k • star (a.L k) - star (w k) • a.L k) := by
    unfold imAdjoint
    rw [star_sum, ← Finset.sum_sub_distrib, Finset.smul_sum]
    simp only [star_smul, star_star]
  have hI : ∀ Y : A, Complex.I • (Complex.I / 2) • Y = -((1 / 2 : ℂ) • Y) := by
    intro Y
    rw [smul_smul, ← neg_smul]
    congr 1
    rw [← mul_div_assoc, Complex.I_mul_I]; ring
  constructor
  · unfold masterEq
    rw [hn, hH, him, add_mul, mul_add, Finset.sum_mul, Finset.mul_sum, show ∀ x y z w : A, x + y - (z + w) = (x - z) + (y - w) from fun x y z w => by abel,
      ← Finset.sum_sub_distrib, smul_add, Finset.smul_sum, add_assoc, ← Finset.sum_add_distrib]
    congr 1
    refine Finset.sum_congr rfl (fun k hk => ?_)
    rw [hL k (mem_range.mp hk), star_add, star_algebraMap']
    generalize a.L k = L
    generalize w k = w
    simp only [smul_mul_assoc, mul_smul_comm, ← smul_sub, neg_smul, hI, neg_neg]
    simp only [Algebra.algebraMap_eq_smul_one, mul_add, add_mul, smul_mul_assoc, mul_smul_comm, one_mul, mul_one, sub_mul, mul_sub, mul_assoc]
    module
  · unfold heisenberg
    rw [hn, hH, him, add_mul, mul_add, Finset.sum_mul, Finset.mul_sum, show ∀ x y z w : A, x + y - (z + w) = (x - z) + (y - w) from fun x y z w => by abel,
      ← Finset.sum_sub_distrib, smul_add, Finset.smul_sum, add_assoc, ← Finset.sum_add_distrib]
    congr 1
    refine Finset.sum_congr rfl (fun k hk => ?_)
    rw [hL k (mem_range.mp hk), star_add, star_algebraMap']
    generalize a.L k = L
    generalize w k = w
    simp only [smul_mul_assoc, mul_smul_comm, ← smul_sub, hI]
    simp only [Algebra.algebraMap_eq_smul_one, mul_add, add_mul, smul_mul_assoc, mul_smul_comm, one_mul, mul_one, sub_mul, mul_sub, mul_assoc]
    module

/-- the triple that results from a drive downstream -/
theorem drive_series [StarModule ℂ A] {a : SLH A} {cs : List ℂ} (hn : cs.length = a.n) :
    (series (driveTriple cs) a).n = a.n ∧ (∀ i j, i < a.n → j < a.n → (series (driveTriple cs) a).S i j = a.S i j) ∧
    (∀ i, i < a.n → (series (driveTriple cs) a).L i = a.L i + algebraMap ℂ A (cs[i]?.getD 0)) ∧
    (series (driveTriple cs) a).H = a.H + imAdjoint (∑ k ∈ range a.n, star (cs[k]?.getD 0) • a.L k) := by
  have dn : (driveTriple cs : SLH A).n = a.n := hn
  have dS : ∀ i j, i < a.n → j < a.n → (driveTriple cs : SLH A).S i j = if i = j then 1 else 0 := by
    intro i j hi hj
    rw [driveTriple, mk'_S (by omega) (by omega)]
  have dL : ∀ i, i < a.n → (driveTriple cs : SLH A).L i = algebraMap ℂ A (cs[i]?.getD 0) := by
    intro i hi
    rw [driveTriple, mk'_L (by omega)]
  have sel : ∀ (i : ℕ) (f : ℕ → A), i < a.n → ∑ k ∈ range a.n, (driveTriple cs : SLH A).S i k * f k = f i := by
    intro i f hi
    rw [Finset.sum_congr rfl (g := fun k => if i = k then f k else 0)]
    · rw [Finset.sum_ite_eq, if_pos (mem_range.mpr hi)]
    · intro k hk
      rw [dS i k hi (mem_range.mp hk)]
      by_cases h : i = k <;> simp [h]
  refine ⟨dn, ?_, ?_, ?_⟩
  · intro i j hi hj
    rw [series, mk'_S (by omega) (by omega), dn, sel i _ hi]
  · intro i hi
    rw [series, mk'_L (by omega), dn, sel i _ hi, dL i hi]
  · show (driveTriple cs : SLH A).H + a.H + _ = _
    rw [show (driveTriple cs : SLH A).H = 0 from rfl, zero_add, dn]
    congr 2
    refine Finset.sum_congr rfl (fun k hk => ?_)
    have hk := mem_range.mp hk
    rw [Finset.sum_congr rfl (g := fun i => if i = k then star (algebraMap ℂ A (cs[i]?.getD 0)) else 0)]
    · rw [Finset.sum_ite_eq', if_pos (mem_range.mpr hk), star_algebraMap', Algebra.smul_def]
    · intro i hi
      rw [dS i k (mem_range.mp hi) hk, dL i (mem_range.mp hi)]
      by_cases h : i = k <;> simp [h]

theorem scalarcs_spec {Γ : Ctx ℂ} {n : ℕ} {which : List ℕ} : ∀ (Ls : List (QX ℂ)) (jj : ℕ) (cs : List ℂ), scalarcs Γ n which jj Ls = .ok cs →
    cs.length = Ls.length ∧ ∀ (i : ℕ) (L : QX ℂ), Ls[i]? = some L → ∃ c, cs[i]? = some c ∧ driveCoeff Γ n which (jj + i) L = .ok c
  | [], jj, cs, h => by cases h; simp
  | L :: Ls, jj, cs, h => by
    obtain ⟨c, h1, h⟩ := Indexed.Except.bind_ok h
    obtain ⟨cs', h2, h⟩ := Indexed.Except.bind_ok h
    cases h
    obtain ⟨e1, e2⟩ := scalarcs_spec Ls (jj + 1) cs' h2
    refine ⟨by simp [e1], ?_⟩
    intro i x hx
    cases i with
    | zero =>
      simp only [List.getElem?_cons_zero, Option.some.injEq] at hx
      subst hx
      exact ⟨c, by simp, h1⟩
    | succ i =>
      simp only [List.getElem?_cons_succ] at hx ⊢
      obtain ⟨c', e3, e4⟩ := e2 i x hx
      exact ⟨c', e3, by rw [← e4]; congr 1; omega⟩

/-- what `move_drive_to_H` returns, in terms of the shifts `cs` -/
theorem moveDrive_shift [StarModule ℂ A] {Γ : Ctx ℂ} {n : ℕ} {a b : SLH A} {Ls : List (QX ℂ)} {which : Option (List ℕ)}
    (hlen : Ls.length = a.n) (h : moveDriveToH Γ n a Ls which = .ok b) :
    ∃ cs, scalarcs Γ n (which.getD []) 0 Ls = .ok cs ∧ b.n = a.n ∧ (∀ i j, i < a.n → j < a.n → b.S i j = a.S i j) ∧
      (∀ i, i < a.n → b.L i = a.L i + algebraMap ℂ A (cs[i]?.getD 0)) ∧ b.H = a.H + imAdjoint (∑ k ∈ range a.n, star (cs[k]?.getD 0) • a.L k) := by
  obtain ⟨cs, h1, h⟩ := Indexed.Except.bind_ok h
  refine ⟨cs, h1, ?_⟩
  have hcs := (scalarcs_spec _ _ _ h1).1
  split at h
  · rename_i h0
    cases h
    have hz : ∀ i : ℕ, cs[i]?.getD 0 = 0 := by
      intro i
      cases e : cs[i]? with
      | none => rfl
      | some c => exact h0 c (List.mem_of_getElem? e)
    refine ⟨rfl, fun _ _ _ _ => rfl, fun i _ => by simp [hz], by simp [hz, imAdjoint]⟩
  · cases h
    exact drive_series (hcs.trans hlen)

/-- C55: `move_drive_to_H` does not change the master equation, nor the (ensemble averaged) Heisenberg equations. -/
theorem C55_dynamics [StarModule ℂ A] {Γ : Ctx ℂ} {n : ℕ} {a b : SLH A} {Ls : List (QX ℂ)} {which : Option (List ℕ)}
    (hlen : Ls.length = a.n) (h : moveDriveToH Γ n a Ls which = .ok b) (X : A) :
    masterEq b X = masterEq a X ∧ heisenberg b X = heisenberg a X := by
  obtain ⟨cs, -, h1, -, h3, h4⟩ := moveDrive_shift hlen h
  exact shift_eom (fun k => cs[k]?.getD 0) h1 h3 h4 X

/-- C55: `move_drive_to_H` changes neither the scattering matrix nor the number of channels, and a unitary `S` and Hermitian `H` stay so. -/
theorem C55_physical [StarModule ℂ A] {Γ : Ctx ℂ} {n : ℕ} {a b : SLH A} {Ls : List (QX ℂ)} {which : Option (List ℕ)}
    (hlen : Ls.length = a.n) (h : moveDriveToH Γ n a Ls which = .ok b) :
    b.n = a.n ∧ (∀ i j, b.S i j = a.S i j) ∧ (Physical a → Physical b) := by
  obtain ⟨cs, -, h1, h2, h3, h4⟩ := moveDrive_shift hlen h
  have hS : ∀ i j, b.S i j = a.S i j := by
    intro i j
    by_cases hij : i < a.n ∧ j < a.n
    · exact h2 i j hij.1 hij.2
    · rw [a.hS i j hij, b.hS i j (by rwa [h1])]
  refine ⟨h1, hS, fun ⟨p1, p2, p3⟩ => ⟨?_, ?_, ?_⟩⟩
  · intro k l hk hl
    rw [h1] at hk hl ⊢
    simp only [hS]
    exact p1 k l hk hl
  · intro k l hk hl
    rw [h1] at hk hl ⊢
    simp only [hS]
    exact p2 k l hk hl
  · rw [h4, star_add, p3, star_imAdjoint]

/-- C55: the constant part of the selected coupling operators is removed, the other coupling operators are unchanged: for a selected channel `i` with
the expansion `e` of `L_i`, the new `L_i` is the sum over the terms of `e` other than the identity. Channels are selected if they are listed in `which`,
if `which` is `None` - or if it is empty. -/
theorem C55_removed [StarModule ℂ A] {Γ : Ctx ℂ} {ρ : ℕ → A} (hΓ : SoundCtx Γ ρ) {n : ℕ} {a b : SLH A} {Ls : List (QX ℂ)} {which : Option (List ℕ)}
    (hlen : Ls.length = a.n) (hLs : ∀ (i : ℕ) (L : QX ℂ), Ls[i]? = some L → val ρ L = a.L i)
    (h : moveDriveToH Γ n a Ls which = .ok b) (i : ℕ) (L : QX ℂ) (hi : Ls[i]? = some L) :
    ((which.getD [] = [] ∨ i ∈ which.getD []) → ∃ e, QAlg.expand Γ n L = .ok e ∧
      b.L i = (((getCoeffs e).filter (fun tc => !decide (tc.1 = .one))).map (fun tc => tc.2 • val ρ tc.1)).sum) ∧
    (¬ (which.getD [] = [] ∨ i ∈ which.getD []) → b.L i = a.L i) := by
  obtain ⟨cs, h0, h1, h2, h3, h4⟩ := moveDrive_shift hlen h
  have hin : i < a.n := by rw [← hlen]; exact (List.getElem?_eq_some_iff.mp hi).1
  obtain ⟨c, e1, e2⟩ := (scalarcs_spec _ _ _ h0).2 i L hi
  rw [Nat.zero_add] at e2
  constructor
  · intro hw
    rw [driveCoeff, if_pos hw] at e2
    obtain ⟨e, e3, e4⟩ := Indexed.Except.bind_ok e2
    refine ⟨e, e3, ?_⟩
    have hc : c = -coeffOf (getCoeffs e) .one := by cases e4; rfl
    rw [h3 i hin, e1, Option.getD_some, hc, ← hLs i L hi, ← QAlg.expand_val hΓ _ _ _ e3, getCoeffs_split ρ e, map_neg]
    simp only [mapVal]
    abel
  · intro hw
    rw [driveCoeff, if_neg hw] at e2
    have hc : c = 0 := by cases e2; rfl
    rw [h3 i hin, e1, hc]
    simp

/-- one channel with the coupling operator `1` -/
noncomputable def driveSample : SLH ℂ := mk' 1 (fun _ _ => 1) (fun _ => 1) 0

theorem driveSample_scalarcs : scalarcs (Ctx.plain ℂ) 1 [] 0 [QX.one] = .ok [-1] := by
  simp only [scalarcs, driveCoeff, true_or, if_true]
  have : QAlg.expand (Ctx.plain ℂ) 1 QX.one = .ok .one := by simp [QAlg.expand, QAlg.expandStep]
  rw [this]
  show Except.ok [-coeffOf (getCoeffs QX.one) .one] = _
  simp [coeffOf, getCoeffs, coeffMap, summandsOf, QAlg.addTerm, QAlg.split]

/-- `move_drive_to_H` succeeds for the sample, and removes the drive -/
theorem driveSample_moved : ∃ b, moveDriveToH (Ctx.plain ℂ) 1 driveSample [QX.one] (some []) = .ok b ∧ b.L 0 = 0 := by
  refine ⟨series (driveTriple [-1]) driveSample, ?_, ?_⟩
  · unfold moveDriveToH
    rw [Option.getD_some, driveSample_scalarcs]
    show (if _ then _ else _) = _
    rw [if_neg]
    simp
  · rw [(drive_series (a := driveSample) (cs := [-1]) rfl).2.2.1 0 (by decide)]
    simp [driveSample, mk']

/-- C55 refuted: an empty selection `which=[]` is treated like `which=None`: although no channel is selected, all channels are transformed. -/
theorem C55_refuted_empty : ∃ (Γ : Ctx ℂ) (n : ℕ) (a b : SLH ℂ) (Ls : List (QX ℂ)), SoundCtx Γ (fun _ => (0 : ℂ)) ∧ Ls.length = a.n ∧
    (∀ (i : ℕ) (L : QX ℂ), Ls[i]? = some L → val (fun _ => (0 : ℂ)) L = a.L i) ∧ moveDriveToH Γ n a Ls (some []) = .ok b ∧ b.L 0 ≠ a.L 0 := by
  obtain ⟨b, hb, h0⟩ := driveSample_moved
  refine ⟨Ctx.plain ℂ, 1, driveSample, b, [QX.one], ⟨fun _ => .refl _, fun _ => rfl, fun _ _ _ h => (by cases h), fun _ _ h => (by cases h), fun _ _ h => (by cases h)⟩, rfl, ?_, hb, ?_⟩
  · intro i L h
    cases i with
    | zero => cases h; simp [QAlg.val, driveSample, mk']
    | succ i => simp at h
  · rw [h0]; simp [driveSample, mk']

/-! ### C56 -/

variable [StarModule ℂ A]

theorem coherentDrive_eq (α : ℂ) : (coherentDrive α : SLH A) = driveTriple [α] := by
  refine ext' rfl ?_ ?_ rfl
  · intro i j hi hj
    have hi : i < 1 := hi
    have hj : j < 1 := hj
    rw [coherentDrive, driveTriple, mk'_S (by exact hi) (by exact hj), mk'_S (by exact hi) (by exact hj), if_pos (by omega)]
  · intro i hi
    have hi : i < 1 := hi
    obtain rfl : i = 0 := by omega
    rw [coherentDrive, driveTriple, mk'_L (by exact hi), mk'_L (by exact hi)]
    rfl

theorem passThrough_drive : (passThrough 1 : SLH A) = driveTriple [0] := by
  refine ext' rfl ?_ ?_ rfl
  · intro i j hi hj
    rw [passThrough, driveTriple, mk'_S (by exact hi) (by exact hj), mk'_S (by exact hi) (by exact hj)]
  · intro i hi
    have hi : i < 1 := hi
    obtain rfl : i = 0 := by omega
    rw [passThrough, driveTriple, mk'_L (by exact hi), mk'_L (by exact hi)]
    simp

theorem concat_drive (l m : List ℂ) : concat (driveTriple l : SLH A) (driveTriple m) = driveTriple (l ++ m) := by
  have hn : ∀ l : List ℂ, (driveTriple l : SLH A).n = l.length := fun _ => rfl
  refine ext' (by simp [hn]) ?_ ?_ (by simp [concat, mk', driveTriple])
  · intro i j hi hj
    simp only [concat_n, hn] at hi hj
    rw [concat, mk'_S (by exact hi) (by exact hj)]
    simp only [hn]
    conv_rhs => rw [driveTriple, mk'_S (by simpa using hi) (by simpa using hj)]
    split <;> split
    · rename_i h1 h2
      rw [driveTriple, mk'_S h1 h2]
    · rw [if_neg (by omega)]
    · rw [if_neg (by omega)]
    · rw [driveTriple, mk'_S (by omega) (by omega)]
      congr 1
      exact propext (by omega)
  · intro i hi
    simp only [concat_n, hn] at hi
    rw [concat, mk'_L (by exact hi)]
    simp only [hn]
    conv_rhs => rw [driveTriple, mk'_L (by simpa using hi)]
    split
    · rename_i h1
      rw [driveTriple, mk'_L h1, List.getElem?_append_left h1]
    · rw [driveTriple, mk'_L (by omega), List.getElem?_append_right (by omega)]

theorem drive_or_pass (c : ℂ) [Decidable (c ≠ 0)] : (if c ≠ 0 then coherentDrive c else passThrough 1 : SLH A) = driveTriple [c] := by
  split
  · exact coherentDrive_eq _
  · rename_i h
    rw [not_not.mp h, passThrough_drive]

open Classical in
theorem concatAll_drive (c : ℂ) (cs : List ℂ) :
    concatAll ((c :: cs).map (fun amp => if amp ≠ 0 then coherentDrive amp else passThrough 1 : ℂ → SLH A)) = .ok (driveTriple (c :: cs)) := by
  have key : ∀ (cs ds : List ℂ), (cs.map (fun amp => if amp ≠ 0 then coherentDrive amp else passThrough 1 : ℂ → SLH A)).foldl concat (driveTriple ds)
      = driveTriple (ds ++ cs) := by
    intro cs
    induction cs with
    | nil => intro ds; simp
    | cons c cs ih =>
      intro ds
      rw [List.map_cons, List.foldl_cons, drive_or_pass, concat_drive, ih, List.append_assoc, List.singleton_append]
  rw [List.map_cons, concatAll, drive_or_pass, key]
  rfl

/-- `coherent_input` puts the displacements upstream -/
theorem coherentInput_eq {a : SLH A} (amps : List ℂ) (h0 : 0 < a.n) :
    coherentInput a amps = if amps.length = a.n then .ok (series a (driveTriple amps)) else .error .algebraError := by
  unfold coherentInput
  by_cases h : amps.length = a.n
  · rw [if_neg (not_not.mpr h), if_pos h]
    match amps, h with
    | [], h => simp at h; omega
    | [c], h => simp only [coherentDrive_eq]
    | c :: d :: cs, h =>
      simp only
      rw [concatAll_drive]
      rfl
  · rw [if_pos h, if_neg h]

/-- C56: `coherent_input(α_0, ..., α_{n-1})` raises `WrongCDimError` exactly if the number of amplitudes is not the number of channels (`n > 0`), and
otherwise the outputs of the new circuit for inputs `u` are the outputs of the given circuit for the inputs `u + α`. The scattering matrix is unchanged,
and the coupling vector becomes `L + S α`. -/
theorem C56_coherent_input {a : SLH A} (amps : List ℂ) (h0 : 0 < a.n) :
    (amps.length ≠ a.n → coherentInput a amps = .error .algebraError) ∧
    (amps.length = a.n → ∃ b, coherentInput a amps = .ok b ∧ b.n = a.n ∧ (∀ i j, b.S i j = a.S i j) ∧
      (∀ i, i < a.n → b.L i = a.L i + ∑ k ∈ range a.n, (amps[k]?.getD 0) • a.S i k) ∧
      ∀ (u : ℕ → A) (k : ℕ), k < a.n → output b u k = output a (fun j => u j + algebraMap ℂ A (amps[j]?.getD 0)) k) := by
  rw [coherentInput_eq amps h0]
  refine ⟨fun h => by rw [if_neg h], fun h => ⟨series a (driveTriple amps), by rw [if_pos h], rfl, ?_⟩⟩
  have dn : (driveTriple amps : SLH A).n = a.n := h
  have hS : ∀ i j, i < a.n → j < a.n → (series a (driveTriple amps)).S i j = a.S i j := by
    intro i j hi hj
    rw [series, mk'_S (by exact hi) (by exact hj), Finset.sum_congr rfl (g := fun k => if k = j then a.S i k else 0)]
    · rw [Finset.sum_ite_eq', if_pos (mem_range.mpr hj)]
    · intro k hk
      rw [driveTriple, mk'_S (by rw [h]; exact mem_range.mp hk) (by omega)]
      by_cases h : k = j <;> simp [h]
  have hL : ∀ i, i < a.n → (series a (driveTriple amps)).L i = a.L i + ∑ k ∈ range a.n, (amps[k]?.getD 0) • a.S i k := by
    intro i hi
    rw [series, mk'_L (by exact hi), add_comm]
    congr 1
    refine Finset.sum_congr rfl (fun k hk => ?_)
    rw [driveTriple, mk'_L (by rw [h]; exact mem_range.mp hk), Algebra.smul_def, Algebra.commutes]
  refine ⟨fun i j => ?_, hL, ?_⟩
  · by_cases hij : i < a.n ∧ j < a.n
    · exact hS i j hij.1 hij.2
    · rw [a.hS i j hij, (series a (driveTriple amps)).hS i j hij]
  · intro u k hk
    unfold output
    rw [hL k hk, series_n]
    simp only [mul_add, Finset.sum_add_distrib]
    rw [Finset.sum_congr rfl (fun j hj => by rw [hS k j hk (mem_range.mp hj)]), add_assoc, add_comm (a.L k)]
    congr 2
    refine Finset.sum_congr rfl (fun j _ => ?_)
    rw [Algebra.smul_def, Algebra.commutes]

theorem driveTriple_physical (cs : List ℂ) : Physical (driveTriple cs : SLH A) := by
  have hp := passThrough_unitary (A := A) cs.length
  have e : ∀ i j, (driveTriple cs : SLH A).S i j = (passThrough cs.length : SLH A).S i j := fun i j => rfl
  refine ⟨?_, ?_, by simp [driveTriple, mk']⟩
  · intro k l hk hl
    simp only [e]
    exact hp.1 k l hk hl
  · intro k l hk hl
    simp only [e]
    exact hp.2 k l hk hl

/-- C56: a unitary `S` and Hermitian `H` stay so. -/
theorem C56_coherent_physical {a b : SLH A} {amps : List ℂ} (h0 : 0 < a.n) (ha : Physical a) (h : coherentInput a amps = .ok b) : Physical b := by
  rw [coherentInput_eq amps h0] at h
  split at h
  · rename_i hl
    cases h
    exact C15_series hl.symm ha (driveTriple_physical amps)
  · cases h

/-- two drives in series -/
theorem drive_drive (α β : List ℂ) (h : α.length = β.length) :
    series (driveTriple α : SLH A) (driveTriple β) = mk' α.length (fun i j => if i = j then 1 else 0)
      (fun i => algebraMap ℂ A (α[i]?.getD 0 + β[i]?.getD 0)) (algebraMap ℂ A ((Complex.I / 2) * (∑ k ∈ range α.length,
        (α[k]?.getD 0 * star (β[k]?.getD 0) - star (α[k]?.getD 0) * β[k]?.getD 0)))) := by
  obtain ⟨e1, e2, e3, e4⟩ := drive_series (A := A) (a := driveTriple β) (cs := α) h
  have hn : (driveTriple β : SLH A).n = α.length := h.symm
  rw [hn] at e2 e3 e4
  refine ext' (by rw [e1, hn]; rfl) ?_ ?_ ?_
  · intro i j hi hj
    rw [e1, hn] at hi hj
    rw [e2 i j hi hj, mk'_S (by exact hi) (by exact hj), driveTriple, mk'_S (by omega) (by omega)]
  · intro i hi
    rw [e1, hn] at hi
    rw [e3 i hi, mk'_L (by exact hi), driveTriple, mk'_L (by omega), map_add, add_comm]
  · rw [e4]
    have hH : (driveTriple β : SLH A).H = 0 := rfl
    have hL : ∀ k ∈ range α.length, star (α[k]?.getD 0) • (driveTriple β : SLH A).L k = algebraMap ℂ A (star (α[k]?.getD 0) * β[k]?.getD 0) := by
      intro k hk
      rw [driveTriple, mk'_L (by rw [← h]; exact mem_range.mp hk), Algebra.smul_def, map_mul]
    rw [hH, zero_add, Finset.sum_congr rfl hL, ← map_sum, imAdjoint, star_algebraMap', ← map_sub, Algebra.smul_def, ← map_mul, star_sum, ← Finset.sum_sub_distrib]
    show _ = algebraMap ℂ A _
    rw [show ∀ x y : ℂ, x = y → algebraMap ℂ A x = algebraMap ℂ A y from fun _ _ h => by rw [h]]
    congr 1
    refine Finset.sum_congr rfl (fun k _ => ?_)
    rw [star_mul, star_star, mul_comm]

/-- numbers in the Hamiltonian do not affect the equations of motion -/
theorem eom_const {a b : SLH A} (r : ℂ) (hn : b.n = a.n) (hL : ∀ i, i < a.n → b.L i = a.L i) (hH : b.H = a.H + algebraMap ℂ A r) (X : A) :
    masterEq b X = masterEq a X ∧ heisenberg b X = heisenberg a X := by
  have e : b.H * X - X * b.H = a.H * X - X * a.H := by
    rw [hH, add_mul, mul_add, Algebra.commutes r X]; abel
  unfold masterEq heisenberg
  rw [hn, e]
  constructor
  · congr 1
    exact Finset.sum_congr rfl (fun k hk => by rw [hL k (mem_range.mp hk)])
  · congr 1
    exact Finset.sum_congr rfl (fun k hk => by rw [hL k (mem_range.mp hk)])

/-- C56: feeding coherent amplitudes `α` and then `β` is the same as feeding `α + β`: the triples have the same `S` and `L`, their Hamiltonians differ by a
number, and the equations of motion are the same. -/
theorem C56_twice {a b c d : SLH A} {α β : List ℂ} (h0 : 0 < a.n) (ha : Iso a) (h1 : coherentInput a α = .ok b) (h2 : coherentInput b β = .ok c)
    (h3 : coherentInput a (List.zipWith (· + ·) α β) = .ok d) :
    c.n = d.n ∧ (∀ i j, i < a.n → j < a.n → c.S i j = d.S i j) ∧ (∀ i, i < a.n → c.L i = d.L i) ∧ (∃ r : ℂ, c.H = d.H + algebraMap ℂ A r) ∧
      ∀ X, masterEq c X = masterEq d X ∧ heisenberg c X = heisenberg d X := by
  rw [coherentInput_eq _ h0] at h1 h3
  split at h1
  swap
  · cases h1
  rename_i hα
  split at h3
  swap
  · cases h3
  cases h1
  cases h3
  rw [coherentInput_eq _ (by simpa using h0)] at h2
  split at h2
  swap
  · cases h2
  rename_i hβ
  cases h2
  have hβ : β.length = a.n := hβ
  have hαβ : α.length = β.length := by omega
  have hz : ∀ k : ℕ, k < a.n → (List.zipWith (· + ·) α β)[k]?.getD 0 = α[k]?.getD 0 + β[k]?.getD 0 := by
    intro k hk
    rw [List.getElem?_zipWith]
    rw [List.getElem?_eq_getElem (by omega : k < α.length), List.getElem?_eq_getElem (by omega : k < β.length)]
    rfl
  have hzl : (List.zipWith (· + ·) α β).length = a.n := by simp; omega
  have hassoc := C13_assoc (a := a) (b := driveTriple α) (c := driveTriple β) hα.symm hαβ ha (driveTriple_physical α).1
  rw [hassoc, drive_drive α β hαβ]
  generalize hr : (Complex.I / 2) * (∑ k ∈ range α.length, (α[k]?.getD 0 * star (β[k]?.getD 0) - star (α[k]?.getD 0) * β[k]?.getD 0)) = r
  have eS : ∀ i j, i < a.n → j < a.n → (mk' α.length (fun i j => if i = j then 1 else 0) (fun i => algebraMap ℂ A (α[i]?.getD 0 + β[i]?.getD 0))
      (algebraMap ℂ A r)).S i j = (driveTriple (List.zipWith (· + ·) α β) : SLH A).S i j := by
    intro i j hi hj
    rw [driveTriple, mk'_S (by omega) (by omega), mk'_S (by omega) (by omega)]
  have eL : ∀ i, i < a.n → (mk' α.length (fun i j => if i = j then 1 else 0) (fun i => algebraMap ℂ A (α[i]?.getD 0 + β[i]?.getD 0))
      (algebraMap ℂ A r)).L i = (driveTriple (List.zipWith (· + ·) α β) : SLH A).L i := by
    intro i hi
    rw [driveTriple, mk'_L (by omega), mk'_L (by omega), hz i hi]
  have hL : ∀ i, i < a.n → (series a (mk' α.length (fun i j => if i = j then 1 else 0) (fun i => algebraMap ℂ A (α[i]?.getD 0 + β[i]?.getD 0))
      (algebraMap ℂ A r))).L i = (series a (driveTriple (List.zipWith (· + ·) α β))).L i := by
    intro i hi
    rw [series, series, mk'_L (by exact hi), mk'_L (by exact hi)]
    congr 1
    exact Finset.sum_congr rfl (fun k hk => by rw [eL k (mem_range.mp hk)])
  have hH : (series a (mk' α.length (fun i j => if i = j then 1 else 0) (fun i => algebraMap ℂ A (α[i]?.getD 0 + β[i]?.getD 0))
      (algebraMap ℂ A r))).H = (series a (driveTriple (List.zipWith (· + ·) α β))).H + algebraMap ℂ A r := by
    show a.H + algebraMap ℂ A r + imAdjoint _ = a.H + 0 + imAdjoint _ + algebraMap ℂ A r
    rw [Finset.sum_congr rfl (fun k hk => by rw [eL k (mem_range.mp hk)])]
    abel
  refine ⟨rfl, ?_, hL, ⟨r, hH⟩, fun X => eom_const r (by rfl) (by exact hL) hH X⟩
  intro i j hi hj
  rw [series, series, mk'_S (by exact hi) (by exact hj), mk'_S (by exact hi) (by exact hj)]
  exact Finset.sum_congr rfl (fun k hk => by rw [eS k j (mem_range.mp hk) hj])

/-- C56: the components of the library have a unitary scattering matrix and a Hermitian Hamiltonian, for every displacement and all real phases and mixing
angles. -/
theorem C56_components (α : ℂ) (φ θ : ℝ) :
    Physical (coherentDrive α : SLH A) ∧ Physical (phaseCC φ : SLH A) ∧ Physical (beamsplitter θ : SLH A) := by
  refine ⟨?_, ?_, ?_⟩
  · rw [coherentDrive_eq]; exact driveTriple_physical _
  · have e : star (Complex.exp (Complex.I * φ)) * Complex.exp (Complex.I * φ) = 1 := by
      rw [Complex.star_def, ← Complex.exp_conj, ← Complex.exp_add]
      simp
    have hS : (phaseCC (φ : ℂ) : SLH A).S 0 0 = algebraMap ℂ A (Complex.exp (Complex.I * φ)) := by simp [phaseCC, mk']
    have hn : (phaseCC (φ : ℂ) : SLH A).n = 1 := rfl
    refine ⟨?_, ?_, by simp [phaseCC, mk']⟩ <;>
    · intro k l hk hl
      rw [hn] at hk hl ⊢
      obtain rfl : k = 0 := by omega
      obtain rfl : l = 0 := by omega
      rw [Finset.sum_range_one, hS, star_algebraMap', ← map_mul]
      first | rw [e] | rw [mul_comm, e]
      simp
  · have hn : (beamsplitter (θ : ℂ) : SLH A).n = 2 := rfl
    have e := Complex.sin_sq_add_cos_sq (θ : ℂ)
    have hc : star (Complex.cos (θ : ℂ)) = Complex.cos θ := by rw [Complex.star_def, ← Complex.cos_conj, Complex.conj_ofReal]
    have hs : star (Complex.sin (θ : ℂ)) = Complex.sin θ := by rw [Complex.star_def, ← Complex.sin_conj, Complex.conj_ofReal]
    refine ⟨?_, ?_, by simp [beamsplitter, mk']⟩ <;>
    · intro k l hk hl
      rw [hn] at hk hl ⊢
      rw [Finset.sum_range_succ, Finset.sum_range_succ, Finset.sum_range_zero, zero_add]
      simp only [beamsplitter]
      rw [mk'_S (by omega) (by omega), mk'_S (by omega) (by omega), mk'_S (by omega) (by omega), mk'_S (by omega) (by omega)]
      simp only [star_algebraMap', ← map_mul, ← map_add]
      rw [show (if k = l then (1 : A) else 0) = algebraMap ℂ A (if k = l then 1 else 0) by split <;> simp]
      congr 1
      interval_cases k <;> interval_cases l <;> simp [-Complex.star_def, hc, hs] <;> first | linear_combination e | ring

/-- C56: phases in series add up, mixing angles of beam splitters in series add up, and vanishing parameters yield pass-through channels. -/
theorem C56_compose (φ φ' θ θ' : ℂ) :
    series (phaseCC φ : SLH A) (phaseCC φ') = phaseCC (φ + φ') ∧ series (beamsplitter θ : SLH A) (beamsplitter θ') = beamsplitter (θ + θ') ∧
    (phaseCC 0 : SLH A) = passThrough 1 ∧ (beamsplitter 0 : SLH A) = passThrough 2 := by
  refine ⟨?_, ?_, ?_, ?_⟩
  · refine ext' rfl ?_ ?_ ?_
    · intro i j hi hj
      have hi : i < 1 := hi
      have hj : j < 1 := hj
      have hn : (phaseCC φ : SLH A).n = 1 := rfl
      rw [series, mk'_S (by exact hi) (by exact hj), hn, Finset.sum_range_one]
      simp only [phaseCC]
      rw [mk'_S (by exact hi) (by omega), mk'_S (by omega) (by exact hj), mk'_S (by exact hi) (by exact hj), ← map_mul, ← Complex.exp_add, mul_add]
    · intro i hi
      simp [series, phaseCC, mk']
    · simp [series, phaseCC, mk', imAdjoint]
  · refine ext' rfl ?_ ?_ ?_
    · intro i j hi hj
      have hi : i < 2 := hi
      have hj : j < 2 := hj
      have hn : (beamsplitter θ : SLH A).n = 2 := rfl
      rw [series, mk'_S (by exact hi) (by exact hj), hn, Finset.sum_range_succ, Finset.sum_range_succ, Finset.sum_range_zero, zero_add]
      simp only [beamsplitter]
      rw [mk'_S (by omega) (by omega), mk'_S (by omega) (by omega), mk'_S (by omega) (by omega), mk'_S (by omega) (by omega), mk'_S (by omega) (by omega), ← map_mul, ← map_mul, ← map_add]
      congr 1
      rw [Complex.cos_add, Complex.sin_add]
      interval_cases i <;> interval_cases j <;> simp <;> ring
    · intro i hi
      simp [series, beamsplitter, mk']
    · simp [series, beamsplitter, mk', imAdjoint]
  · refine ext' rfl ?_ ?_ ?_
    · intro i j hi hj
      have hi : i < 1 := hi
      have hj : j < 1 := hj
      rw [phaseCC, passThrough, mk'_S (by exact hi) (by exact hj), mk'_S (by exact hi) (by exact hj), if_pos (by omega)]
      simp
    · intro i hi
      simp [phaseCC, passThrough, mk']
    · rfl
  · refine ext' rfl ?_ ?_ ?_
    · intro i j hi hj
      have hi : i < 2 := hi
      have hj : j < 2 := hj
      rw [beamsplitter, passThrough, mk'_S (by exact hi) (by exact hj), mk'_S (by exact hi) (by exact hj)]
      interval_cases i <;> interval_cases j <;> simp
    · intro i hi
      simp [beamsplitter, passThrough, mk']
    · rfl

/-- C56: the inverse of a phase or a beam splitter has the negative parameter (real parameters). -/
theorem C56_inverse (φ θ : ℝ) : inverse (phaseCC φ : SLH A) = phaseCC (-φ : ℝ) ∧ inverse (beamsplitter θ : SLH A) = beamsplitter (-θ : ℝ) := by
  have hc : star (Complex.cos (θ : ℂ)) = Complex.cos θ := by rw [Complex.star_def, ← Complex.cos_conj, Complex.conj_ofReal]
  have hs : star (Complex.sin (θ : ℂ)) = Complex.sin θ := by rw [Complex.star_def, ← Complex.sin_conj, Complex.conj_ofReal]
  constructor
  · refine ext' rfl ?_ ?_ ?_
    · intro i j hi hj
      have hi : i < 1 := hi
      have hj : j < 1 := hj
      rw [inverse, mk'_S (by exact hi) (by exact hj)]
      simp only [phaseCC]
      rw [mk'_S (by exact hj) (by exact hi), mk'_S (by exact hi) (by exact hj), star_algebraMap', Complex.star_def, ← Complex.exp_conj]
      congr 2
      simp
    · intro i hi
      simp [inverse, phaseCC, mk']
    · simp [inverse, phaseCC, mk']
  · refine ext' rfl ?_ ?_ ?_
    · intro i j hi hj
      have hi : i < 2 := hi
      have hj : j < 2 := hj
      rw [inverse, mk'_S (by exact hi) (by exact hj)]
      simp only [beamsplitter]
      rw [mk'_S (by exact hj) (by exact hi), mk'_S (by exact hi) (by exact hj), star_algebraMap']
      congr 1
      interval_cases i <;> interval_cases j <;> simp [-Complex.star_def, hc, hs]
    · intro i hi
      simp [inverse, beamsplitter, mk']
    · simp [inverse, beamsplitter, mk']

omit [StarModule ℂ A] in
/-- C56 refuted: the zero-channel circuit `circuit_identity(0)`, e.g. the result of closing the only channel of a permutation circuit, cannot be converted:
`toSLH()` raises `ValueError`, because `Matrix([[]])` has the shape (1, 0). -/
theorem C56_refuted_circuit_zero : circuitZeroToSLH = .error .valueError := rfl

/-- C56: the constructor `SLH(S, L, H)` checks that `L` is a column with as many rows as `S`, but accepts an `S` that is not square. -/
theorem C56_slh_constructor (S L : ℕ × ℕ) : slhInit S L = .ok () ↔ S.1 = L.1 ∧ L.2 = 1 := by
  unfold slhInit
  split
  · rename_i h
    exact ⟨fun h' => (by cases h'), fun h' => absurd h'.1 h⟩
  · rename_i h
    split
    · rename_i h2
      exact ⟨fun h' => (by cases h'), fun h' => absurd h'.2 h2⟩
    · rename_i h2
      exact ⟨fun _ => ⟨not_not.mp h, not_not.mp h2⟩, fun _ => rfl⟩

/-- a non-square scattering matrix is accepted -/
theorem C56_refuted_square : slhInit (2, 3) (2, 1) = .ok () := rfl

/-! ### The hypotheses are satisfiable -/

example : ∃ b c d, coherentInput sample [1, Complex.I] = .ok b ∧ coherentInput b [2, 3] = .ok c ∧
    coherentInput sample (List.zipWith (· + ·) [1, Complex.I] [2, 3]) = .ok d := by
  have h : (0 : ℕ) < sample.n := by simp [sample, mk']
  refine ⟨series sample (driveTriple [1, Complex.I]), series (series sample (driveTriple [1, Complex.I])) (driveTriple [2, 3]),
    series sample (driveTriple (List.zipWith (· + ·) [1, Complex.I] [2, 3])), ?_, ?_, ?_⟩
  · rw [coherentInput_eq _ h, if_pos (by simp [sample, mk'])]
  · rw [coherentInput_eq _ (by simpa using h), if_pos (by simp [sample, mk'])]
  · rw [coherentInput_eq _ h, if_pos (by simp [sample, mk'])]

end QNET.SLH
