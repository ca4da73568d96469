import Verif.Linear.Thm69
import Mathlib.LinearAlgebra.Finsupp.LinearCombination
import Mathlib.LinearAlgebra.Finsupp.LSum
import Mathlib.Algebra.BigOperators.Finsupp.Basic
import Mathlib.Algebra.Algebra.Subalgebra.Basic

/-!
# The star algebra of operators on the Fock space of countably many modes

Used to show that the hypotheses of C69 (and of later theorems about bosonic modes) can be met: `V` is the space of finite linear combinations of
(unnormalised) occupation number states, `Fock` the algebra of the operators on `V` that have an adjoint.
-/

namespace QNET.Linear

open Finset
open QNET.Perm (Res Err)
open QNET.QAlg (QX Ctx val SoundCtx)

/-- occupation numbers -/
abbrev Occ := ℕ →₀ ℕ
/-- finite linear combinations of occupation number states -/
abbrev V := Occ →₀ ℂ

/-- the squared norm of the unnormalised state `∏ (a_k†)^(f k) |0⟩` -/
noncomputable def w (f : Occ) : ℂ := ((f.prod (fun _ n => n.factorial) : ℕ) : ℂ)

theorem w_ne (f : Occ) : w f ≠ 0 := by
  unfold w
  rw [Nat.cast_ne_zero, Finsupp.prod, Finset.prod_ne_zero_iff]
  exact fun i _ => Nat.factorial_ne_zero _

theorem w_star (f : Occ) : star (w f) = w f := by
  unfold w
  exact star_natCast _

theorem w_add (f : Occ) (k : ℕ) : w (f + Finsupp.single k 1) = (f k + 1 : ℕ) * w f := by
  unfold w
  rw [← Finsupp.mul_prod_erase' f k _ (fun _ => Nat.factorial_zero), ← Finsupp.mul_prod_erase' (f + Finsupp.single k 1) k _ (fun _ => Nat.factorial_zero),
    Finsupp.erase_add, Finsupp.erase_single, add_zero, Finsupp.add_apply, Finsupp.single_eq_same, Nat.factorial_succ]
  push_cast
  ring

/-- `S` is the adjoint of `T` -/
def IsAdj (T S : Module.End ℂ V) : Prop := ∀ f g : Occ, w g * T (Finsupp.single f 1) g = star (S (Finsupp.single g 1) f) * w f

theorem IsAdj.symm {T S : Module.End ℂ V} (h : IsAdj T S) : IsAdj S T := by
  intro f g
  have := congrArg star (h g f)
  rw [star_mul', star_mul', star_star, w_star, w_star] at this
  rw [mul_comm, ← this, mul_comm]

theorem end_ext {S T : Module.End ℂ V} (h : ∀ f g : Occ, S (Finsupp.single f 1) g = T (Finsupp.single f 1) g) : S = T := by
  refine Finsupp.lhom_ext' (fun f => LinearMap.ext_ring ?_)
  ext g
  exact h f g

theorem IsAdj.unique {T S S' : Module.End ℂ V} (h : IsAdj T S) (h' : IsAdj T S') : S = S' := by
  refine end_ext (fun f g => ?_)
  have h1 := (h g f).symm.trans (h' g f)
  exact star_injective (mul_right_cancel₀ (w_ne g) h1)

/-- matrix elements of a product -/
theorem mul_entry (T T' : Module.End ℂ V) (f g : Occ) (s : Finset Occ) (hs : (T' (Finsupp.single f 1)).support ⊆ s) :
    (T * T') (Finsupp.single f 1) g = ∑ h ∈ s, T (Finsupp.single h 1) g * T' (Finsupp.single f 1) h := by
  rw [Module.End.mul_apply]
  conv_lhs => rw [← Finsupp.sum_single (T' (Finsupp.single f 1)), Finsupp.sum_of_support_subset _ hs _ (fun _ _ => Finsupp.single_zero _), map_sum, Finsupp.finsetSum_apply]
  refine Finset.sum_congr rfl (fun h _ => ?_)
  rw [← mul_one (T' (Finsupp.single f 1) h), ← smul_eq_mul, ← Finsupp.smul_single, map_smul, Finsupp.smul_apply, smul_eq_mul, smul_eq_mul, mul_one, mul_comm]

theorem IsAdj.mul {T S T' S' : Module.End ℂ V} (h : IsAdj T S) (h' : IsAdj T' S') : IsAdj (T * T') (S' * S) := by
  classical
  intro f g
  rw [mul_entry T T' f g ((T' (Finsupp.single f 1)).support ∪ (S (Finsupp.single g 1)).support) Finset.subset_union_left,
    mul_entry S' S g f ((T' (Finsupp.single f 1)).support ∪ (S (Finsupp.single g 1)).support) Finset.subset_union_right,
    Finset.mul_sum, star_sum, Finset.sum_mul]
  refine Finset.sum_congr rfl (fun k _ => ?_)
  have e1 := h k g
  have e2 := h' f k
  rw [star_mul', ← mul_assoc, e1, mul_assoc, e2]
  ring

theorem IsAdj.add {T S T' S' : Module.End ℂ V} (h : IsAdj T S) (h' : IsAdj T' S') : IsAdj (T + T') (S + S') := by
  intro f g
  simp only [LinearMap.add_apply, Finsupp.add_apply, mul_add, star_add, add_mul, h f g, h' f g]

theorem IsAdj.smul {T S : Module.End ℂ V} (h : IsAdj T S) (z : ℂ) : IsAdj (z • T) (star z • S) := by
  intro f g
  simp only [LinearMap.smul_apply, Finsupp.smul_apply, smul_eq_mul, star_mul', star_star]
  rw [mul_assoc, ← h f g]
  ring

theorem IsAdj.one : IsAdj 1 1 := by
  intro f g
  simp only [Module.End.one_apply, Finsupp.single_apply]
  by_cases h : f = g
  · subst h; simp
  · rw [if_neg h, if_neg (fun e => h e.symm)]; simp

/-- operators with an adjoint -/
def Fock : Subalgebra ℂ (Module.End ℂ V) where
  carrier := {T | ∃ S, IsAdj T S}
  mul_mem' := fun ⟨_, h⟩ ⟨_, h'⟩ => ⟨_, h.mul h'⟩
  add_mem' := fun ⟨_, h⟩ ⟨_, h'⟩ => ⟨_, h.add h'⟩
  algebraMap_mem' := fun z => ⟨star z • 1, by rw [Algebra.algebraMap_eq_smul_one]; exact IsAdj.one.smul z⟩

noncomputable instance : Ring Fock := @Subalgebra.toRing ℂ (Module.End ℂ V) _ _ _ Fock

noncomputable instance : Star Fock where
  star T := ⟨T.2.choose, T.1, T.2.choose_spec.symm⟩

theorem star_adj (T : Fock) : IsAdj T.1 (star T).1 := T.2.choose_spec

theorem star_eq {T S : Fock} (h : IsAdj T.1 S.1) : star T = S := Subtype.ext ((star_adj T).unique h)

noncomputable instance : StarRing Fock where
  star_involutive T := star_eq (star_adj T).symm
  star_mul T S := star_eq ((star_adj T).mul (star_adj S))
  star_add T S := star_eq ((star_adj T).add (star_adj S))

instance : StarModule ℂ Fock where
  star_smul z T := star_eq ((star_adj T).smul z)

/-- the creation operator of mode `k` -/
noncomputable def upOp (k : ℕ) : Module.End ℂ V := Finsupp.linearCombination ℂ (fun f => Finsupp.single (f + Finsupp.single k 1) (1 : ℂ))
/-- the annihilation operator of mode `k` -/
noncomputable def downOp (k : ℕ) : Module.End ℂ V := Finsupp.linearCombination ℂ (fun f => Finsupp.single (f - Finsupp.single k 1) (f k : ℂ))

theorem upOp_single (k : ℕ) (f : Occ) (z : ℂ) : upOp k (Finsupp.single f z) = Finsupp.single (f + Finsupp.single k 1) z := by
  simp [upOp]
theorem downOp_single (k : ℕ) (f : Occ) (z : ℂ) : downOp k (Finsupp.single f z) = Finsupp.single (f - Finsupp.single k 1) (z * f k) := by
  simp [downOp]

theorem down_up_adj (k : ℕ) : IsAdj (downOp k) (upOp k) := by
  intro f g
  rw [downOp_single, upOp_single, one_mul, Finsupp.single_apply, Finsupp.single_apply]
  by_cases h : g + Finsupp.single k 1 = f
  · subst h
    rw [if_pos (by rw [add_tsub_cancel_right]), if_pos rfl, w_add, Finsupp.add_apply, Finsupp.single_eq_same, star_one, one_mul]
    ring
  · rw [if_neg h, star_zero, zero_mul]
    by_cases h0 : f k = 0
    · simp [h0]
    · rw [if_neg, mul_zero]
      intro e
      apply h
      rw [← e, tsub_add_cancel_of_le]
      rw [Finsupp.single_le_iff]
      omega

/-- annihilation operators as elements of the star algebra -/
noncomputable def down (k : ℕ) : Fock := ⟨downOp k, _, down_up_adj k⟩

theorem star_down (k : ℕ) : (star (down k)).1 = upOp k := (star_adj (down k)).unique (down_up_adj k)

theorem down_down (j k : ℕ) : down j * down k = down k * down j := by
  refine Subtype.ext (Finsupp.lhom_ext' (fun f => LinearMap.ext_ring ?_))
  show downOp j (downOp k (Finsupp.single f 1)) = downOp k (downOp j (Finsupp.single f 1))
  rw [downOp_single, downOp_single, downOp_single, downOp_single]
  by_cases h : j = k
  · subst h; rfl
  · rw [tsub_tsub, tsub_tsub, add_comm, Finsupp.tsub_apply, Finsupp.tsub_apply, Finsupp.single_eq_of_ne h, Finsupp.single_eq_of_ne (fun e => h e.symm)]
    simp [mul_comm]

theorem down_up (j k : ℕ) : down j * star (down k) - star (down k) * down j = if j = k then 1 else 0 := by
  refine Subtype.ext (Finsupp.lhom_ext' (fun f => LinearMap.ext_ring ?_))
  show downOp j ((star (down k)).1 (Finsupp.single f 1)) - (star (down k)).1 (downOp j (Finsupp.single f 1)) = (if j = k then (1 : Fock) else 0).1 (Finsupp.single f 1)
  rw [star_down, upOp_single, downOp_single, downOp_single, upOp_single, one_mul, one_mul]
  by_cases h : j = k
  · subst h
    rw [if_pos rfl, add_tsub_cancel_right, Finsupp.add_apply, Finsupp.single_eq_same]
    show _ = Finsupp.single f (1 : ℂ)
    by_cases h0 : f j = 0
    · rw [h0]; simp
    · rw [tsub_add_cancel_of_le (by rw [Finsupp.single_le_iff]; omega), ← Finsupp.single_sub]
      simp
  · rw [if_neg h, Finsupp.add_apply, Finsupp.single_eq_of_ne h, add_zero]
    show _ = (0 : V)
    by_cases h0 : f j = 0
    · rw [h0]; simp
    · rw [← tsub_add_eq_add_tsub (by rw [Finsupp.single_le_iff]; omega), sub_self]

/-- the modes are the even, the fields the odd modes of the Fock space -/
noncomputable def fock (s : ℕ) : Fock :=
  if s % 5 = 0 then down (2 * (s / 5)) else if s % 5 = 1 then star (down (2 * (s / 5))) else if s % 5 = 2 then down (2 * (s / 5) + 1)
  else if s % 5 = 3 then star (down (2 * (s / 5) + 1)) else 0

theorem fock_0 (k : ℕ) : fock (5 * k) = down (2 * k) := by
  rw [fock, if_pos (by omega), show 5 * k / 5 = k by omega]
theorem fock_1 (k : ℕ) : fock (5 * k + 1) = star (down (2 * k)) := by
  rw [fock, if_neg (by omega), if_pos (by omega), show (5 * k + 1) / 5 = k by omega]
theorem fock_2 (k : ℕ) : fock (5 * k + 2) = down (2 * k + 1) := by
  rw [fock, if_neg (by omega), if_neg (by omega), if_pos (by omega), show (5 * k + 2) / 5 = k by omega]
theorem fock_3 (k : ℕ) : fock (5 * k + 3) = star (down (2 * k + 1)) := by
  rw [fock, if_neg (by omega), if_neg (by omega), if_neg (by omega), if_pos (by omega), show (5 * k + 3) / 5 = k by omega]

theorem fock_modes (m n : ℕ) : Modes m n fock where
  crea k _ := by rw [fock_1, fock_0]
  noid k _ := by rw [fock_3, fock_2]
  aa j k _ _ := by rw [fock_0, fock_0, down_down]
  ccr j k _ _ := by
    rw [fock_0, fock_0, down_up]
    by_cases h : j = k
    · rw [if_pos h, if_pos (by omega)]
    · rw [if_neg h, if_neg (by omega)]
  ba j k _ _ := by rw [fock_0, fock_2, down_down]
  ba' j k _ _ := by
    rw [fock_0, fock_2]
    have := down_up (2 * j + 1) (2 * k)
    rwa [if_neg (by omega), sub_eq_zero] at this

theorem lin_vacuum (m n : ℕ) (c : ℂ) (p q r s : ℕ → ℂ) (g : Occ) : (lin m n fock c p q r s).1 (Finsupp.single 0 1) g
    = c * Finsupp.single (0 : Occ) (1 : ℂ) g + ∑ k ∈ range m, q k * Finsupp.single (Finsupp.single (2 * k) 1 : Occ) (1 : ℂ) g
      + ∑ k ∈ range n, s k * Finsupp.single (Finsupp.single (2 * k + 1) 1 : Occ) (1 : ℂ) g := by
  have hc : ∀ (t : Finset ℕ) (F : ℕ → Fock), ((∑ k ∈ t, F k : Fock)).1 (Finsupp.single 0 1) g = ∑ k ∈ t, (F k).1 (Finsupp.single 0 1) g := by
    intro t F
    rw [show ((∑ k ∈ t, F k : Fock)).1 = ∑ k ∈ t, (F k).1 from map_sum Fock.val F t, LinearMap.sum_apply, Finsupp.finsetSum_apply]
  have hd : ∀ (k : ℕ) (z : ℂ), (z • down k : Fock).1 (Finsupp.single 0 1) g = 0 := by
    intro k z
    show (z • downOp k (Finsupp.single 0 1)) g = 0
    rw [downOp_single]; simp
  have hu : ∀ (k : ℕ) (z : ℂ), (z • star (down k) : Fock).1 (Finsupp.single 0 1) g = z * Finsupp.single (Finsupp.single k 1 : Occ) (1 : ℂ) g := by
    intro k z
    show (z • (star (down k)).1 (Finsupp.single 0 1)) g = _
    rw [star_down, upOp_single, zero_add]; rfl
  have hadd : ∀ X Y : Fock, (X + Y).1 (Finsupp.single 0 1) g = X.1 (Finsupp.single 0 1) g + Y.1 (Finsupp.single 0 1) g := fun _ _ => rfl
  unfold lin
  simp only [hadd, hc, fock_0, fock_2, hd, hu, Finset.sum_const_zero, add_zero]
  rfl

theorem fock_indep (m n : ℕ) : Indep m n fock := by
  have key : ∀ (c : ℂ) (p q r s : ℕ → ℂ), lin m n fock c p q r s = 0 → c = 0 ∧ (∀ k, k < m → q k = 0) ∧ (∀ k, k < n → s k = 0) := by
    intro c p q r s h
    have h1 : ∀ g : Occ, (lin m n fock c p q r s).1 (Finsupp.single 0 1) g = 0 := by intro g; rw [h]; rfl
    simp only [lin_vacuum, Finsupp.single_apply] at h1
    have ne : ∀ k : ℕ, (Finsupp.single k 1 : Occ) ≠ 0 := fun k => by simp
    have inj : ∀ j k : ℕ, ((Finsupp.single j 1 : Occ) = Finsupp.single k 1) ↔ j = k := fun j k =>
      ⟨fun h => Finsupp.single_left_injective one_ne_zero h, fun h => by rw [h]⟩
    refine ⟨?_, fun k hk => ?_, fun k hk => ?_⟩
    · simpa [ne] using h1 0
    · have := h1 (Finsupp.single (2 * k) 1)
      simp only [inj, (ne _).symm, if_false, mul_zero, zero_add] at this
      rw [Finset.sum_eq_single k, if_pos rfl, mul_one, Finset.sum_eq_zero, add_zero] at this
      · exact this
      · intro j _; rw [if_neg (by omega), mul_zero]
      · intro j _ hj; rw [if_neg (by omega), mul_zero]
      · intro hh; exact absurd (mem_range.mpr hk) hh
    · have := h1 (Finsupp.single (2 * k + 1) 1)
      simp only [inj, (ne _).symm, if_false, mul_zero, zero_add] at this
      rw [Finset.sum_eq_zero, zero_add, Finset.sum_eq_single k, if_pos rfl, mul_one] at this
      · exact this
      · intro j _ hj; rw [if_neg (by omega), mul_zero]
      · intro hh; exact absurd (mem_range.mpr hk) hh
      · intro j _; rw [if_neg (by omega), mul_zero]
  intro c p q r s h
  have h1 := key c p q r s h
  have h2 := key (star c) (fun k => star (q k)) (fun k => star (p k)) (fun k => star (s k)) (fun k => star (r k)) (by rw [← lin_star]; rw [show lin m n fock c p q r s = 0 from h, star_zero])
  exact ⟨h1.1, fun k hk => ⟨star_eq_zero.mp (h2.2.1 k hk), h1.2.1 k hk⟩, fun k hk => ⟨star_eq_zero.mp (h2.2.2 k hk), h1.2.2 k hk⟩⟩

end QNET.Linear
