import Verif.Linear.Model

/-! # The ABCD arrays describe the equations of motion (C69) -/

namespace QNET.Linear

open Finset
open QNET.Perm (Res Err)
open QNET.QAlg (QX Ctx val SoundCtx mapVal)
open QNET.SLH (getCoeffs coeffOf)

variable {A : Type} [Ring A] [StarRing A] [Algebra ℂ A]

/-! ### Coefficients -/

theorem coeffOf_cons (t s : QX ℂ) (c : ℂ) (l : List (QX ℂ × ℂ)) : coeffOf ((t, c) :: l) s = if t = s then c else coeffOf l s := by
  by_cases h : t = s <;> simp [coeffOf, h]

theorem coeffOf_not_mem {t : QX ℂ} {l : List (QX ℂ × ℂ)} (h : t ∉ l.map Prod.fst) : coeffOf l t = 0 := by
  induction l with
  | nil => simp [coeffOf]
  | cons x l ih =>
    obtain ⟨s, c⟩ := x
    simp only [List.map_cons, List.mem_cons, not_or] at h
    rw [coeffOf_cons, if_neg (fun e => h.1 e.symm), ih h.2]

theorem coeffOf_add {t : QX ℂ} {c : ℂ} {l : List (QX ℂ × ℂ)} (h : t ∉ l.map Prod.fst) (s : QX ℂ) :
    coeffOf ((t, c) :: l) s = coeffOf l s + if t = s then c else 0 := by
  rw [coeffOf_cons]
  by_cases e : t = s
  · subst e; simp [coeffOf_not_mem h]
  · simp [e]

theorem dest_inj {j k : ℕ} : dest j = dest k ↔ j = k := by simp [dest]
theorem crea_inj {j k : ℕ} : crea j = crea k ↔ j = k := by simp [crea]
theorem nois_inj {j k : ℕ} : nois j = nois k ↔ j = k := by simp [nois]
theorem noid_inj {j k : ℕ} : noid j = noid k ↔ j = k := by simp [noid]
theorem ne_dc {j k : ℕ} : dest j ≠ crea k := by simp [dest, crea]; omega
theorem ne_dn {j k : ℕ} : dest j ≠ nois k := by simp [dest, nois]; omega
theorem ne_dm {j k : ℕ} : dest j ≠ noid k := by simp [dest, noid]; omega
theorem ne_cn {j k : ℕ} : crea j ≠ nois k := by simp [crea, nois]; omega
theorem ne_cm {j k : ℕ} : crea j ≠ noid k := by simp [crea, noid]; omega
theorem ne_nm {j k : ℕ} : nois j ≠ noid k := by simp [nois, noid]; omega

theorem sum_pick {n k : ℕ} (hk : k < n) (P : ℕ → Prop) [DecidablePred P] (hP : ∀ j, P j ↔ k = j) (c : ℂ) (f : ℕ → A) :
    ∑ j ∈ range n, (if P j then c else 0) • f j = c • f k := by
  rw [Finset.sum_eq_single k]
  · rw [if_pos ((hP k).mpr rfl)]
  · intro j _ hj
    rw [if_neg (fun h => hj ((hP j).mp h).symm), zero_smul]
  · intro h; exact absurd (mem_range.mpr hk) h

theorem sum_none {n : ℕ} (P : ℕ → Prop) [DecidablePred P] (hP : ∀ j, ¬ P j) (c : ℂ) (f : ℕ → A) : ∑ j ∈ range n, (if P j then c else 0) • f j = 0 :=
  Finset.sum_eq_zero (fun j _ => by rw [if_neg (hP j), zero_smul])

/-- the linear combination of the operators with given coefficients -/
noncomputable def lin (m n : ℕ) (ρ : ℕ → A) (c : ℂ) (p q r s : ℕ → ℂ) : A :=
  c • (1 : A) + ∑ k ∈ range m, p k • ρ (5 * k) + ∑ k ∈ range m, q k • star (ρ (5 * k))
      + ∑ k ∈ range n, r k • ρ (5 * k + 2) + ∑ k ∈ range n, s k • star (ρ (5 * k + 2))

theorem lin_add (m n : ℕ) (ρ : ℕ → A) (c p q r s c' p' q' r' s') :
    lin m n ρ (c + c') (fun k => p k + p' k) (fun k => q k + q' k) (fun k => r k + r' k) (fun k => s k + s' k)
      = lin m n ρ c p q r s + lin m n ρ c' p' q' r' s' := by
  simp only [lin, add_smul, Finset.sum_add_distrib]
  abel

theorem lin_sub (m n : ℕ) (ρ : ℕ → A) (c p q r s c' p' q' r' s') :
    lin m n ρ (c - c') (fun k => p k - p' k) (fun k => q k - q' k) (fun k => r k - r' k) (fun k => s k - s' k)
      = lin m n ρ c p q r s - lin m n ρ c' p' q' r' s' := by
  simp only [lin, sub_smul, Finset.sum_sub_distrib]
  abel

theorem lin_smul (m n : ℕ) (ρ : ℕ → A) (z c : ℂ) (p q r s : ℕ → ℂ) :
    lin m n ρ (z * c) (fun k => z * p k) (fun k => z * q k) (fun k => z * r k) (fun k => z * s k) = z • lin m n ρ c p q r s := by
  simp only [lin, smul_add, Finset.smul_sum, smul_smul]

theorem lin_star [StarModule ℂ A] (m n : ℕ) (ρ : ℕ → A) (c : ℂ) (p q r s : ℕ → ℂ) :
    star (lin m n ρ c p q r s) = lin m n ρ (star c) (fun k => star (q k)) (fun k => star (p k)) (fun k => star (s k)) (fun k => star (r k)) := by
  simp only [lin, star_add, star_smul, star_sum, star_one, star_star]
  abel

theorem Indep.unique {m n : ℕ} {ρ : ℕ → A} (h : Indep m n ρ) {c : ℂ} {p q r s : ℕ → ℂ} {c' : ℂ} {p' q' r' s' : ℕ → ℂ}
    (e : lin m n ρ c p q r s = lin m n ρ c' p' q' r' s') :
    c = c' ∧ (∀ k, k < m → p k = p' k ∧ q k = q' k) ∧ (∀ k, k < n → r k = r' k ∧ s k = s' k) := by
  have := h (c - c') _ _ _ _ ((lin_sub m n ρ c p q r s c' p' q' r' s').trans (sub_eq_zero.mpr e))
  simpa only [sub_eq_zero] using this

/-- the value of an expression that is linear in the ladder and field operators -/
theorem linear_val {m n : ℕ} {ρ : ℕ → A} (hρ : Modes m n ρ) {e : QX ℂ} (he : LinearX m n e) :
    val ρ e = lin m n ρ (coeffOf (getCoeffs e) .one) (fun k => coeffOf (getCoeffs e) (dest k)) (fun k => coeffOf (getCoeffs e) (crea k))
      (fun k => coeffOf (getCoeffs e) (nois k)) (fun k => coeffOf (getCoeffs e) (noid k)) := by
  have h0 : mapVal (val ρ) (getCoeffs e) = val ρ e := by
    rw [getCoeffs, QAlg.coeffMap_val (QAlg.val_linear (ρ := ρ)), QAlg.summandsOf_val]
  have hd : ((getCoeffs e).map Prod.fst).Nodup := QAlg.coeffMap_nodup _
  unfold LinearX at he
  rw [← h0]
  clear h0
  generalize getCoeffs e = l at hd he
  induction l with
  | nil => simp [coeffOf, mapVal, lin]
  | cons x l ih =>
    obtain ⟨t, c⟩ := x
    simp only [List.map_cons, List.nodup_cons] at hd
    have ih := ih hd.2 (fun tc h => he tc (List.mem_cons_of_mem _ h))
    simp only [coeffOf_add hd.1]
    rw [lin_add, ← ih, show mapVal (val ρ) ((t, c) :: l) = c • val ρ t + mapVal (val ρ) l from rfl, add_comm]
    congr 1
    rcases he (t, c) List.mem_cons_self with h | h | ⟨k, hk, h | h⟩ | ⟨k, hk, h | h⟩ <;> simp only at h <;> subst h <;> unfold lin
    · rw [if_neg (by simp), zero_smul, sum_none _ (by simp [dest]), sum_none _ (by simp [crea]), sum_none _ (by simp [nois]), sum_none _ (by simp [noid])]
      simp [QAlg.val]
    · rw [if_pos rfl, sum_none _ (by simp [dest]), sum_none _ (by simp [crea]), sum_none _ (by simp [nois]), sum_none _ (by simp [noid])]
      simp [QAlg.val]
    · rw [if_neg (by simp [dest]), zero_smul, sum_pick hk _ (fun j => dest_inj), sum_none _ (fun j => ne_dc), sum_none _ (fun j => ne_dn),
        sum_none _ (fun j => ne_dm)]
      simp [QAlg.val, dest]
    · rw [if_neg (by simp [crea]), zero_smul, sum_none _ (fun j => ne_dc.symm), sum_pick hk _ (fun j => crea_inj), sum_none _ (fun j => ne_cn),
        sum_none _ (fun j => ne_cm)]
      simp [QAlg.val, crea, hρ.crea k hk]
    · rw [if_neg (by simp [nois]), zero_smul, sum_none _ (fun j => ne_dn.symm), sum_none _ (fun j => ne_cn.symm), sum_pick hk _ (fun j => nois_inj),
        sum_none _ (fun j => ne_nm)]
      simp [QAlg.val, nois]
    · rw [if_neg (by simp [noid]), zero_smul, sum_none _ (fun j => ne_dm.symm), sum_none _ (fun j => ne_cm.symm), sum_none _ (fun j => ne_nm.symm),
        sum_pick hk _ (fun j => noid_inj)]
      simp [QAlg.val, noid, hρ.noid k hk]

theorem PassiveX.linear {m n : ℕ} {e : QX ℂ} (h : PassiveX m n e) : LinearX m n e := by
  intro tc htc
  rcases h tc htc with h | h | ⟨k, hk, h⟩ | ⟨k, hk, h⟩
  · exact .inl h
  · exact .inr (.inl h)
  · exact .inr (.inr (.inl ⟨k, hk, .inl h⟩))
  · exact .inr (.inr (.inr ⟨k, hk, .inl h⟩))

theorem PassiveX.coef {m n : ℕ} {e : QX ℂ} (h : PassiveX m n e) (k : ℕ) : coeffOf (getCoeffs e) (crea k) = 0 ∧ coeffOf (getCoeffs e) (noid k) = 0 := by
  constructor <;> refine coeffOf_not_mem (fun hm => ?_) <;> obtain ⟨tc, htc, e1⟩ := List.mem_map.mp hm <;>
    rcases h tc htc with h | h | ⟨j, -, h⟩ | ⟨j, -, h⟩ <;> rw [h] at e1
  · simp [crea] at e1
  · simp [crea] at e1
  · exact ne_dc e1
  · exact ne_cn e1.symm
  · simp [noid] at e1
  · simp [noid] at e1
  · exact ne_dm e1
  · exact ne_nm e1

/-! ### Blocks -/

theorem sum_two {M : Type*} [AddCommMonoid M] (n : ℕ) (f : ℕ → M) : ∑ k ∈ range (2 * n), f k = ∑ k ∈ range n, f k + ∑ k ∈ range n, f (k + n) := by
  rw [two_mul, Finset.sum_range_add]
  simp only [add_comm n]

theorem blk_11 {r k i j : ℕ} {p q : ℕ → ℕ → ℂ} (hi : i < r) (hj : j < k) : blk r k p q i j = p i j := by simp [blk, hi, hj]
theorem blk_12 {r k i j : ℕ} {p q : ℕ → ℕ → ℂ} (hi : i < r) : blk r k p q i (j + k) = q i j := by simp [blk, hi]
theorem blk_21 {r k i j : ℕ} {p q : ℕ → ℕ → ℂ} (hj : j < k) : blk r k p q (i + r) j = star (q i j) := by simp [blk, hj]
theorem blk_22 {r k i j : ℕ} {p q : ℕ → ℕ → ℂ} : blk r k p q (i + r) (j + k) = star (p i j) := by simp [blk]

theorem modeVec_1 {m k : ℕ} {ρ : ℕ → A} (h : k < m) : modeVec m ρ k = ρ (5 * k) := by simp [modeVec, h]
theorem modeVec_2 {m k : ℕ} {ρ : ℕ → A} : modeVec m ρ (k + m) = star (ρ (5 * k)) := by simp [modeVec]
theorem fieldVec_1 {m k : ℕ} {ρ : ℕ → A} (h : k < m) : fieldVec m ρ k = ρ (5 * k + 2) := by simp [fieldVec, h]
theorem fieldVec_2 {m k : ℕ} {ρ : ℕ → A} : fieldVec m ρ (k + m) = star (ρ (5 * k + 2)) := by simp [fieldVec]

/-- rows of the doubled arrays are linear combinations -/
theorem rows_lin [StarModule ℂ A] {r m n : ℕ} (ρ : ℕ → A) (c : ℕ → ℂ) (p q s t : ℕ → ℕ → ℂ) (f : ℕ → A)
    (hf : ∀ i, i < r → f i = lin m n ρ (c i) (p i) (q i) (s i) (t i)) (i : ℕ) (hi : i < 2 * r) :
    doubleVec r f i = ∑ k ∈ range (2 * m), blk r m p q i k • modeVec m ρ k + blkV r c i • 1 + ∑ k ∈ range (2 * n), blk r n s t i k • fieldVec n ρ k := by
  simp only [sum_two]
  by_cases h : i < r
  · rw [doubleVec, if_pos h, hf i h, lin, blkV, if_pos h]
    rw [Finset.sum_congr rfl (fun k hk => by rw [blk_11 h (mem_range.mp hk), modeVec_1 (mem_range.mp hk)] :
        ∀ k ∈ range m, blk r m p q i k • modeVec m ρ k = p i k • ρ (5 * k)),
      Finset.sum_congr rfl (fun k hk => by rw [blk_11 h (mem_range.mp hk), fieldVec_1 (mem_range.mp hk)] :
        ∀ k ∈ range n, blk r n s t i k • fieldVec n ρ k = s i k • ρ (5 * k + 2))]
    simp only [blk_12 h, modeVec_2, fieldVec_2]
    abel
  · obtain ⟨i, rfl⟩ : ∃ i', i = i' + r := ⟨i - r, by omega⟩
    rw [doubleVec, if_neg h, Nat.add_sub_cancel, hf i (by omega), lin_star, lin, blkV, if_neg h, Nat.add_sub_cancel]
    rw [Finset.sum_congr rfl (fun k hk => by rw [blk_21 (mem_range.mp hk), modeVec_1 (mem_range.mp hk)] :
        ∀ k ∈ range m, blk r m p q (i + r) k • modeVec m ρ k = star (q i k) • ρ (5 * k)),
      Finset.sum_congr rfl (fun k hk => by rw [blk_21 (mem_range.mp hk), fieldVec_1 (mem_range.mp hk)] :
        ∀ k ∈ range n, blk r n s t (i + r) k • fieldVec n ρ k = star (t i k) • ρ (5 * k + 2))]
    simp only [blk_22, modeVec_2, fieldVec_2]
    abel

/-! ### The scattering matrix -/

theorem asComplex_val {Γ : Ctx ℂ} {ρ : ℕ → A} (hΓ : SoundCtx Γ ρ) {n : ℕ} {o : QX ℂ} {z : ℂ} (h : asComplex Γ n o = .ok z) : val ρ o = z • (1 : A) := by
  obtain ⟨e, h1, h⟩ := Indexed.Except.bind_ok h
  rw [← QAlg.expand_val hΓ n _ _ h1]
  unfold asComplexEnd at h
  split at h <;> cases h <;> simp [QAlg.val]

theorem entry_val {Γ : Ctx ℂ} {ρ : ℕ → A} (hΓ : SoundCtx Γ ρ) {n : ℕ} {S : List (List (QX ℂ))} {d : List (List ℂ)}
    (h : S.mapM (fun row => row.mapM (asComplex Γ n)) = .ok d) (i j : ℕ) : val ρ (((S[i]?.getD [])[j]?).getD .zero) = entry d i j • (1 : A) := by
  replace h := Indexed.mapM_ok_forall₂ h
  have key : ∀ (row : List (QX ℂ)) (dr : List ℂ), row.mapM (asComplex Γ n) = .ok dr → ∀ j : ℕ, val ρ ((row[j]?).getD .zero) = ((dr[j]?).getD 0) • (1 : A) := by
    intro row dr hr
    replace hr := Indexed.mapM_ok_forall₂ hr
    induction hr with
    | nil => intro j; simp [QAlg.val]
    | cons h1 _ ih =>
      intro j
      cases j with
      | zero => simpa using asComplex_val hΓ h1
      | succ j => simpa using ih j
  unfold entry
  induction h generalizing i with
  | nil => simp [QAlg.val]
  | cons h1 _ ih =>
    cases i with
    | zero => simpa using key _ _ h1 j
    | succ i => simpa using ih i

theorem getABCD_ok {Γ : Ctx ℂ} {n : ℕ} {S : List (List (QX ℂ))} {Ls eoms : List (QX ℂ)} {b : Bool} {r : ABCD} (h : getABCD Γ n S Ls eoms b = .ok r) :
    ∃ d, S.mapM (fun row => row.mapM (asComplex Γ n)) = .ok d ∧ r = arrays eoms.length S.length d Ls eoms b := by
  obtain ⟨d, h1, h⟩ := Indexed.Except.bind_ok h
  cases h
  exact ⟨d, h1, rfl⟩

/-- the output fields `L + S b` -/
theorem output_lin [StarModule ℂ A] {m : ℕ} {ρ : ℕ → A} {Γ : Ctx ℂ} {fuel : ℕ} {S : List (List (QX ℂ))} {Ls : List (QX ℂ)} {d : List (List ℂ)}
    (hΓ : SoundCtx Γ ρ) (hρ : Modes m S.length ρ) (hd : S.mapM (fun row => row.mapM (asComplex Γ fuel)) = .ok d)
    (hL : ∀ i, i < S.length → LinearX m 0 (Ls[i]?.getD .zero)) (i : ℕ) (hi : i < S.length) :
    val ρ (Ls[i]?.getD .zero) + ∑ k ∈ range S.length, val ρ (((S[i]?.getD [])[k]?).getD .zero) * ρ (5 * k + 2)
      = lin m S.length ρ (coef Ls (fun _ => .one) i 0) (coef Ls dest i) (coef Ls crea i) (entry d i) (fun _ => 0) := by
  have hρ0 : Modes m 0 ρ := ⟨hρ.crea, by omega, hρ.aa, hρ.ccr, by omega, by omega⟩
  rw [linear_val hρ0 (hL i hi)]
  simp only [entry_val hΓ hd, smul_mul_assoc, one_mul, lin, Finset.range_zero, Finset.sum_empty, add_zero, coef, zero_smul, Finset.sum_const_zero]

/-- C69: if the equations of motion and the coupling operators are linear, then `A, B, a` give exactly the equations of motion of the modes and their adjoints
(`dX = (A X + a) dt + B dA_in`), and `C, D, c` give exactly the output fields `L + S b` and their adjoints (`dA_out = (C X + c) dt + D dA_in`). -/
theorem C69_exact [StarModule ℂ A] {ρ : ℕ → A} {Γ : Ctx ℂ} {fuel : ℕ} {S : List (List (QX ℂ))} {Ls eoms : List (QX ℂ)} {r : ABCD}
    (hΓ : SoundCtx Γ ρ) (hρ : Modes eoms.length S.length ρ) (hr : getABCD Γ fuel S Ls eoms true = .ok r)
    (hE : ∀ e ∈ eoms, LinearX eoms.length S.length e) (hL : ∀ i, i < S.length → LinearX eoms.length 0 (Ls[i]?.getD .zero)) :
    (∀ i, i < 2 * eoms.length → doubleVec eoms.length (fun j => val ρ (eoms[j]?.getD .zero)) i
      = ∑ k ∈ range (2 * eoms.length), r.A i k • modeVec eoms.length ρ k + r.a i • 1 + ∑ k ∈ range (2 * S.length), r.B i k • fieldVec S.length ρ k) ∧
    (∀ i, i < 2 * S.length → doubleVec S.length (fun j => val ρ (Ls[j]?.getD .zero) + ∑ k ∈ range S.length, val ρ (((S[j]?.getD [])[k]?).getD .zero) * ρ (5 * k + 2)) i
      = ∑ k ∈ range (2 * eoms.length), r.C i k • modeVec eoms.length ρ k + r.c i • 1 + ∑ k ∈ range (2 * S.length), r.D i k • fieldVec S.length ρ k) := by
  obtain ⟨d, hd, rfl⟩ := getABCD_ok hr
  simp only [arrays, if_true]
  constructor
  · intro i hi
    refine rows_lin ρ _ _ _ _ _ _ (fun j hj => ?_) i hi
    have h1 : LinearX eoms.length S.length (eoms[j]?.getD .zero) := by
      rw [List.getElem?_eq_getElem hj, Option.getD_some]
      exact hE _ (List.getElem_mem hj)
    exact linear_val hρ h1
  · intro i hi
    exact rows_lin ρ _ _ _ _ _ _ (fun j hj => output_lin hΓ hρ hd hL j hj) i hi

/-- C69: with `doubled_up=False` the arrays give exactly the equations of motion and the output fields if these contain annihilation operators only. -/
theorem C69_exact_passive [StarModule ℂ A] {ρ : ℕ → A} {Γ : Ctx ℂ} {fuel : ℕ} {S : List (List (QX ℂ))} {Ls eoms : List (QX ℂ)} {r : ABCD}
    (hΓ : SoundCtx Γ ρ) (hρ : Modes eoms.length S.length ρ) (hr : getABCD Γ fuel S Ls eoms false = .ok r)
    (hE : ∀ e ∈ eoms, PassiveX eoms.length S.length e) (hL : ∀ i, i < S.length → PassiveX eoms.length 0 (Ls[i]?.getD .zero)) :
    (∀ i, i < eoms.length → val ρ (eoms[i]?.getD .zero)
      = ∑ k ∈ range eoms.length, r.A i k • modeVec eoms.length ρ k + r.a i • 1 + ∑ k ∈ range S.length, r.B i k • fieldVec S.length ρ k) ∧
    (∀ i, i < S.length → val ρ (Ls[i]?.getD .zero) + ∑ k ∈ range S.length, val ρ (((S[i]?.getD [])[k]?).getD .zero) * ρ (5 * k + 2)
      = ∑ k ∈ range eoms.length, r.C i k • modeVec eoms.length ρ k + r.c i • 1 + ∑ k ∈ range S.length, r.D i k • fieldVec S.length ρ k) := by
  obtain ⟨d, hd, rfl⟩ := getABCD_ok hr
  have cm : ∀ f : ℕ → ℂ, ∑ k ∈ range eoms.length, f k • modeVec eoms.length ρ k = ∑ k ∈ range eoms.length, f k • ρ (5 * k) :=
    fun f => Finset.sum_congr rfl (fun k hk => by rw [modeVec_1 (mem_range.mp hk)])
  have cf : ∀ f : ℕ → ℂ, ∑ k ∈ range S.length, f k • fieldVec S.length ρ k = ∑ k ∈ range S.length, f k • ρ (5 * k + 2) :=
    fun f => Finset.sum_congr rfl (fun k hk => by rw [fieldVec_1 (mem_range.mp hk)])
  simp only [arrays, Bool.false_eq_true, if_false, cm, cf]
  constructor
  · intro i hi
    have hp := hE _ (List.getElem_mem hi)
    rw [List.getElem?_eq_getElem hi, Option.getD_some, linear_val hρ hp.linear]
    simp only [coef, List.getElem?_eq_getElem hi, Option.getD_some, lin, (hp.coef _).1, (hp.coef _).2, zero_smul, Finset.sum_const_zero, add_zero]
    abel
  · intro i hi
    have hp := hL i hi
    rw [output_lin hΓ hρ hd (fun i hi => (hL i hi).linear) i hi]
    simp only [coef, lin, (hp.coef _).1, zero_smul, Finset.sum_const_zero, add_zero]
    abel

end QNET.Linear
