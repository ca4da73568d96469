import Verif.SLH.Spec
import Verif.SLH.AffFb
import Mathlib.Tactic.NoncommRing
import Mathlib.Tactic.Module
import Mathlib.Tactic.Abel
import Mathlib.Tactic.LinearCombination

/-!
# SLH triples as affine maps

`toAff` sends an SLH triple to the (doubled) affine data `(S, L, -L†S, -iH - ½L†L)`; on triples with isometric `S`
it turns the SLH operations into the plain operations of `Verif/SLH/Aff.lean`.
-/

namespace QNET.SLH

open Finset

variable {A : Type} [Ring A] [StarRing A] [Algebra ℂ A] [StarModule ℂ A]

theorem mk'_S {n : ℕ} {S : ℕ → ℕ → A} {L : ℕ → A} {H : A} {i j : ℕ} (hi : i < n) (hj : j < n) :
    (mk' n S L H).S i j = S i j := if_pos ⟨hi, hj⟩
theorem mk'_L {n : ℕ} {S : ℕ → ℕ → A} {L : ℕ → A} {H : A} {i : ℕ} (hi : i < n) :
    (mk' n S L H).L i = L i := if_pos hi

theorem ext' {a b : SLH A} (hn : a.n = b.n) (hS : ∀ i j, i < a.n → j < a.n → a.S i j = b.S i j)
    (hL : ∀ i, i < a.n → a.L i = b.L i) (hH : a.H = b.H) : a = b := by
  obtain ⟨n, S, L, H, h1, h2⟩ := a
  obtain ⟨n', S', L', H', h1', h2'⟩ := b
  simp only at hn hS hL hH
  subst hn hH
  have e1 : S = S' := by
    funext i j
    by_cases h : i < n ∧ j < n
    · exact hS i j h.1 h.2
    · rw [h1 i j h, h1' i j h]
  have e2 : L = L' := by
    funext i
    by_cases h : i < n
    · exact hL i h
    · rw [h2 i h, h2' i h]
  subst e1 e2
  rfl

/-- the affine data of a triple -/
noncomputable def toAff (a : SLH A) : Aff A :=
  Aff.mk' a.n a.S a.L (fun j => - ∑ i ∈ range a.n, star (a.L i) * a.S i j)
    (-(Complex.I • a.H) - (1 / 2 : ℂ) • ∑ i ∈ range a.n, star (a.L i) * a.L i)

@[simp] theorem toAff_n (a : SLH A) : (toAff a).n = a.n := rfl
theorem toAff_S (a : SLH A) (i j : ℕ) : (toAff a).S i j = a.S i j := by
  by_cases h : i < a.n ∧ j < a.n
  · exact if_pos h
  · rw [(toAff a).hS i j h, a.hS i j h]
theorem toAff_L (a : SLH A) (i : ℕ) : (toAff a).L i = a.L i := by
  by_cases h : i < a.n
  · exact if_pos h
  · rw [(toAff a).hL i h, a.hL i h]
theorem toAff_R {a : SLH A} {j : ℕ} (h : j < a.n) : (toAff a).R j = - ∑ i ∈ range a.n, star (a.L i) * a.S i j := if_pos h
theorem toAff_R' (a : SLH A) (j : ℕ) : (toAff a).R j = - ∑ i ∈ range a.n, star (a.L i) * a.S i j := by
  by_cases h : j < a.n
  · exact toAff_R h
  · rw [(toAff a).hR j h, Finset.sum_eq_zero, neg_zero]
    intro i _; rw [a.hS i j (by tauto), mul_zero]
theorem toAff_K (a : SLH A) : (toAff a).K = -(Complex.I • a.H) - (1 / 2 : ℂ) • ∑ i ∈ range a.n, star (a.L i) * a.L i := rfl

theorem toAff_inj {a b : SLH A} (h : toAff a = toAff b) : a = b := by
  have hn : a.n = b.n := by have := congrArg Aff.n h; simpa using this
  have hS : ∀ i j, a.S i j = b.S i j := by intro i j; rw [← toAff_S a, ← toAff_S b, h]
  have hL : ∀ i, a.L i = b.L i := by intro i; rw [← toAff_L a, ← toAff_L b, h]
  have hK : (toAff a).K = (toAff b).K := by rw [h]
  rw [toAff_K, toAff_K] at hK
  simp only [hn, hL] at hK
  have h2 : Complex.I • a.H = Complex.I • b.H := by
    have := sub_left_injective hK
    exact neg_injective this
  have h3 : a.H = b.H := by
    have := congrArg (fun z => (-Complex.I) • z) h2
    simpa [smul_smul] using this
  exact ext' hn (fun i j _ _ => hS i j) (fun i _ => hL i) h3

/-- an isometry preserves inner products -/
theorem iso_inner {n : ℕ} {S : ℕ → ℕ → A}
    (h : ∀ k l, k < n → l < n → ∑ i ∈ range n, star (S i k) * S i l = if k = l then 1 else 0) (u v : ℕ → A) :
    ∑ i ∈ range n, star (∑ k ∈ range n, S i k * u k) * (∑ l ∈ range n, S i l * v l) =
      ∑ k ∈ range n, star (u k) * v k := by
  have e : ∀ i, star (∑ k ∈ range n, S i k * u k) * (∑ l ∈ range n, S i l * v l) =
      ∑ k ∈ range n, ∑ l ∈ range n, star (u k) * (star (S i k) * S i l) * v l := by
    intro i
    rw [star_sum, Finset.sum_mul]
    apply Finset.sum_congr rfl; intro k _
    rw [Finset.mul_sum]
    apply Finset.sum_congr rfl; intro l _
    rw [star_mul]; noncomm_ring
  simp only [e]
  rw [Finset.sum_comm]
  apply Finset.sum_congr rfl; intro k hk
  rw [Finset.sum_comm]
  have e2 : ∀ l ∈ range n, ∑ i ∈ range n, star (u k) * (star (S i k) * S i l) * v l =
      star (u k) * ((if k = l then 1 else 0) * v l) := by
    intro l hl
    rw [← h k l (Finset.mem_range.mp hk) (Finset.mem_range.mp hl), Finset.sum_mul, Finset.mul_sum]
    apply Finset.sum_congr rfl; intro i _; noncomm_ring
  rw [Finset.sum_congr rfl e2, ← Finset.mul_sum, Aff.sum_ite_eq_left (Finset.mem_range.mp hk)]

@[simp] theorem series_n (a b : SLH A) : (series a b).n = a.n := rfl
@[simp] theorem concat_n (a b : SLH A) : (concat a b).n = a.n + b.n := rfl
@[simp] theorem inverse_n (a : SLH A) : (inverse a).n = a.n := rfl
@[simp] theorem ofPerm_n (p : List Nat) : (ofPerm p : SLH A).n = p.length := rfl

theorem I_imAdjoint (m : A) : Complex.I • imAdjoint m = (1 / 2 : ℂ) • m - (1 / 2 : ℂ) • star m := by
  unfold imAdjoint
  rw [smul_smul, show Complex.I * (Complex.I / 2) = -(1/2) by
    rw [mul_div_assoc', Complex.I_mul_I]; ring]
  module

theorem toAff_series {a b : SLH A} (hn : a.n = b.n) (ha : Iso a) : toAff (series a b) = Aff.series (toAff a) (toAff b) := by
  have hm : ∑ k ∈ range a.n, (∑ i ∈ range a.n, star (a.L i) * a.S i k) * b.L k =
      ∑ i ∈ range a.n, star (a.L i) * ∑ k ∈ range a.n, a.S i k * b.L k := by
    simp only [Finset.sum_mul, Finset.mul_sum]
    rw [Finset.sum_comm]
    apply Finset.sum_congr rfl; intro i _; apply Finset.sum_congr rfl; intro k _; rw [mul_assoc]
  have hmR : ∀ j, ∑ k ∈ range a.n, (∑ i ∈ range a.n, star (a.L i) * a.S i k) * b.S k j =
      ∑ i ∈ range a.n, star (a.L i) * ∑ k ∈ range a.n, a.S i k * b.S k j := by
    intro j
    simp only [Finset.sum_mul, Finset.mul_sum]
    rw [Finset.sum_comm]
    apply Finset.sum_congr rfl; intro i _; apply Finset.sum_congr rfl; intro k _; rw [mul_assoc]
  refine Aff.ext' (by rfl) ?_ ?_ ?_ ?_
  · intro i j hi hj
    simp only [toAff_n, series_n] at hi hj
    rw [toAff_S, series, mk'_S hi hj, Aff.series_S (by simpa using hi) (by simpa using hj)]
    simp only [toAff_S, toAff_n]
  · intro i hi
    simp only [toAff_n, series_n] at hi
    rw [toAff_L, series, mk'_L hi, Aff.series_L (by simpa using hi)]
    simp only [toAff_S, toAff_L, toAff_n]
  · intro j hj
    simp only [toAff_n, series_n] at hj
    rw [toAff_R (by simpa using hj), Aff.series_R (by simpa using hj)]
    simp only [toAff_R', toAff_S, toAff_n, series_n]
    have e : ∀ i ∈ range a.n, star ((series a b).L i) * (series a b).S i j =
        star (∑ k ∈ range a.n, a.S i k * b.L k) * (∑ k ∈ range a.n, a.S i k * b.S k j) +
        star (a.L i) * ∑ k ∈ range a.n, a.S i k * b.S k j := by
      intro i hi
      rw [series, mk'_L (Finset.mem_range.mp hi), mk'_S (Finset.mem_range.mp hi) hj, star_add, add_mul]
    rw [Finset.sum_congr rfl e, Finset.sum_add_distrib, iso_inner ha, ← hmR]
    simp only [neg_mul, Finset.sum_neg_distrib, ← hn]
    abel
  · rw [toAff_K, Aff.series_K, toAff_K, toAff_K]
    simp only [toAff_R', toAff_L, toAff_n, series_n, neg_mul, Finset.sum_neg_distrib]
    have e : ∀ i ∈ range a.n, star ((series a b).L i) * (series a b).L i =
        star (∑ k ∈ range a.n, a.S i k * b.L k) * (∑ k ∈ range a.n, a.S i k * b.L k) +
        star (a.L i) * (∑ k ∈ range a.n, a.S i k * b.L k) +
        star (star (a.L i) * (∑ k ∈ range a.n, a.S i k * b.L k)) + star (a.L i) * a.L i := by
      intro i hi
      rw [series, mk'_L (Finset.mem_range.mp hi), star_add, star_mul, star_star]; noncomm_ring
    rw [Finset.sum_congr rfl e]
    simp only [Finset.sum_add_distrib]
    rw [iso_inner ha, ← star_sum, ← hm]
    set m := ∑ k ∈ range a.n, (∑ i ∈ range a.n, star (a.L i) * a.S i k) * b.L k with hmdef
    have hH : (series a b).H = a.H + b.H + imAdjoint m := rfl
    rw [hH, smul_add, smul_add, I_imAdjoint]
    simp only [← hn]
    module

theorem toAff_concat (a b : SLH A) : toAff (concat a b) = Aff.concat (toAff a) (toAff b) := by
  refine Aff.ext' (by rfl) ?_ ?_ ?_ ?_
  · intro i j hi hj
    simp only [toAff_n, concat_n] at hi hj
    rw [toAff_S, concat, mk'_S hi hj, Aff.concat_S (by simpa using hi) (by simpa using hj)]
    simp only [toAff_S, toAff_n]
  · intro i hi
    simp only [toAff_n, concat_n] at hi
    rw [toAff_L, concat, mk'_L hi, Aff.concat_L (by simpa using hi)]
    simp only [toAff_L, toAff_n]
  · intro j hj
    simp only [toAff_n, concat_n] at hj
    rw [toAff_R (by simpa using hj), Aff.concat_R (by simpa using hj)]
    simp only [toAff_R', toAff_n, concat_n]
    by_cases h : j < a.n
    · rw [if_pos h]
      congr 1
      rw [Aff.sum_split a.n b.n _ (fun i => star (a.L i) * a.S i j) (fun _ => 0)]
      · simp
      · intro k hk
        rw [concat, mk'_L (by omega), mk'_S (by omega) (by omega), if_pos hk, if_pos hk, if_pos h]
      · intro k hk
        rw [concat, mk'_L (by omega), mk'_S (by omega) (by omega), if_neg (c := a.n + k < a.n) (by omega),
          if_neg (c := a.n + k < a.n) (by omega), if_pos h, mul_zero]
    · rw [if_neg h]
      congr 1
      rw [Aff.sum_split a.n b.n _ (fun _ => 0) (fun i => star (b.L i) * b.S i (j - a.n))]
      · simp
      · intro k hk
        rw [concat, mk'_L (by omega), mk'_S (by omega) (by omega), if_pos hk, if_pos hk, if_neg h, mul_zero]
      · intro k hk
        rw [concat, mk'_L (by omega), mk'_S (by omega) (by omega), if_neg (c := a.n + k < a.n) (by omega),
          if_neg (c := a.n + k < a.n) (by omega), if_neg h]
        simp
  · rw [toAff_K, Aff.concat_K, toAff_K, toAff_K]
    have : ∑ i ∈ range (concat a b).n, star ((concat a b).L i) * (concat a b).L i =
        ∑ i ∈ range a.n, star (a.L i) * a.L i + ∑ i ∈ range b.n, star (b.L i) * b.L i := by
      apply Aff.sum_split
      · intro k hk; rw [concat, mk'_L (by omega), if_pos hk]
      · intro k hk; rw [concat, mk'_L (by omega), if_neg (by omega)]; simp
    rw [this]
    have hH : (concat a b).H = a.H + b.H := rfl
    rw [hH]
    module

/-! ## Isometry / unitarity under the operations -/

theorem iso_iff_aff (a : SLH A) : Iso a ↔ ∀ k l, k < a.n → l < a.n →
    ∑ i ∈ range a.n, star (a.S i k) * a.S i l = if k = l then 1 else 0 := Iff.rfl

theorem Iso.series {a b : SLH A} (hn : a.n = b.n) (ha : Iso a) (hb : Iso b) : Iso (series a b) := by
  intro k l hk hl
  simp only [series_n] at hk hl ⊢
  have e : ∀ i ∈ range a.n, star ((SLH.series a b).S i k) * (SLH.series a b).S i l =
      star (∑ m ∈ range a.n, a.S i m * b.S m k) * (∑ m ∈ range a.n, a.S i m * b.S m l) := by
    intro i hi
    rw [SLH.series, mk'_S (Finset.mem_range.mp hi) hk, mk'_S (Finset.mem_range.mp hi) hl]
  rw [Finset.sum_congr rfl e, iso_inner ha, hn, hb k l (by omega) (by omega)]

theorem CoIso.series {a b : SLH A} (hn : a.n = b.n) (ha : CoIso a) (hb : CoIso b) : CoIso (series a b) := by
  intro k l hk hl
  simp only [series_n] at hk hl ⊢
  have e : ∀ i ∈ range a.n, (SLH.series a b).S k i * star ((SLH.series a b).S l i) =
      star (∑ m ∈ range a.n, star (b.S m i) * star (a.S k m)) * (∑ m ∈ range a.n, star (b.S m i) * star (a.S l m)) := by
    intro i hi
    rw [SLH.series, mk'_S hk (Finset.mem_range.mp hi), mk'_S hl (Finset.mem_range.mp hi)]
    simp only [star_sum, star_mul, star_star]
  rw [Finset.sum_congr rfl e]
  have hb' : ∀ k l, k < a.n → l < a.n → ∑ i ∈ range a.n, star (star (b.S k i)) * star (b.S l i) = if k = l then 1 else 0 := by
    intro k l hk hl
    simp only [star_star, hn]
    exact hb k l (by omega) (by omega)
  rw [iso_inner (S := fun i m => star (b.S m i)) hb' (fun m => star (a.S k m)) (fun m => star (a.S l m))]
  simp only [star_star]
  exact ha k l hk hl

theorem concat_S_cases (a b : SLH A) (i j : ℕ) (hi : i < a.n + b.n) (hj : j < a.n + b.n) :
    (concat a b).S i j = if i < a.n then (if j < a.n then a.S i j else 0)
      else (if j < a.n then 0 else b.S (i - a.n) (j - a.n)) := mk'_S hi hj

theorem Iso.concat {a b : SLH A} (ha : Iso a) (hb : Iso b) : Iso (concat a b) := by
  intro k l hk hl
  simp only [concat_n] at hk hl ⊢
  by_cases h1 : k < a.n <;> by_cases h2 : l < a.n
  · rw [Aff.sum_split a.n b.n _ (fun i => star (a.S i k) * a.S i l) (fun _ => 0)]
    · rw [ha k l h1 h2]; simp
    · intro i hi; rw [concat_S_cases _ _ _ _ (by omega) hk, concat_S_cases _ _ _ _ (by omega) hl]; simp [hi, h1, h2]
    · intro i hi; rw [concat_S_cases _ _ _ _ (by omega) hk, concat_S_cases _ _ _ _ (by omega) hl]; simp [h1, h2]
  · rw [if_neg (by omega)]
    apply Finset.sum_eq_zero
    intro i hi
    have hi := Finset.mem_range.mp hi
    rw [concat_S_cases _ _ _ _ hi hk, concat_S_cases _ _ _ _ hi hl]
    by_cases h : i < a.n <;> simp [h, h1, h2]
  · rw [if_neg (by omega)]
    apply Finset.sum_eq_zero
    intro i hi
    have hi := Finset.mem_range.mp hi
    rw [concat_S_cases _ _ _ _ hi hk, concat_S_cases _ _ _ _ hi hl]
    by_cases h : i < a.n <;> simp [h, h1, h2]
  · rw [Aff.sum_split a.n b.n _ (fun _ => 0) (fun i => star (b.S i (k - a.n)) * b.S i (l - a.n))]
    · rw [hb _ _ (by omega) (by omega)]
      simp only [Finset.sum_const_zero, zero_add]
      by_cases e : k = l
      · rw [if_pos (by omega), if_pos e]
      · rw [if_neg (by omega), if_neg e]
    · intro i hi; rw [concat_S_cases _ _ _ _ (by omega) hk, concat_S_cases _ _ _ _ (by omega) hl]; simp [hi, h1, h2]
    · intro i hi; rw [concat_S_cases _ _ _ _ (by omega) hk, concat_S_cases _ _ _ _ (by omega) hl]; simp [h1, h2]

theorem CoIso.concat {a b : SLH A} (ha : CoIso a) (hb : CoIso b) : CoIso (concat a b) := by
  intro k l hk hl
  simp only [concat_n] at hk hl ⊢
  by_cases h1 : k < a.n <;> by_cases h2 : l < a.n
  · rw [Aff.sum_split a.n b.n _ (fun i => a.S k i * star (a.S l i)) (fun _ => 0)]
    · rw [ha k l h1 h2]; simp
    · intro i hi; rw [concat_S_cases _ _ _ _ hk (by omega), concat_S_cases _ _ _ _ hl (by omega)]; simp [hi, h1, h2]
    · intro i hi; rw [concat_S_cases _ _ _ _ hk (by omega), concat_S_cases _ _ _ _ hl (by omega)]; simp [h1, h2]
  · rw [if_neg (by omega)]
    apply Finset.sum_eq_zero
    intro i hi
    have hi := Finset.mem_range.mp hi
    rw [concat_S_cases _ _ _ _ hk hi, concat_S_cases _ _ _ _ hl hi]
    by_cases h : i < a.n <;> simp [h, h1, h2]
  · rw [if_neg (by omega)]
    apply Finset.sum_eq_zero
    intro i hi
    have hi := Finset.mem_range.mp hi
    rw [concat_S_cases _ _ _ _ hk hi, concat_S_cases _ _ _ _ hl hi]
    by_cases h : i < a.n <;> simp [h, h1, h2]
  · rw [Aff.sum_split a.n b.n _ (fun _ => 0) (fun i => b.S (k - a.n) i * star (b.S (l - a.n) i))]
    · rw [hb _ _ (by omega) (by omega)]
      simp only [Finset.sum_const_zero, zero_add]
      by_cases e : k = l
      · rw [if_pos (by omega), if_pos e]
      · rw [if_neg (by omega), if_neg e]
    · intro i hi; rw [concat_S_cases _ _ _ _ hk (by omega), concat_S_cases _ _ _ _ hl (by omega)]; simp [hi, h1, h2]
    · intro i hi; rw [concat_S_cases _ _ _ _ hk (by omega), concat_S_cases _ _ _ _ hl (by omega)]; simp [h1, h2]

theorem CoIso.inverse {a : SLH A} (ha : Iso a) : CoIso (inverse a) := by
  intro k l hk hl
  simp only [inverse_n] at hk hl ⊢
  rw [← ha k l hk hl]
  apply Finset.sum_congr rfl
  intro i hi
  have hi := Finset.mem_range.mp hi
  rw [SLH.inverse, mk'_S hk hi, mk'_S hl hi, star_star]

theorem Iso.inverse {a : SLH A} (ha : CoIso a) : Iso (inverse a) := by
  intro k l hk hl
  simp only [inverse_n] at hk hl ⊢
  rw [← ha k l hk hl]
  apply Finset.sum_congr rfl
  intro i hi
  have hi := Finset.mem_range.mp hi
  rw [SLH.inverse, mk'_S hi hk, mk'_S hi hl, star_star]

/-! ## Inverse -/

theorem imAdjoint_of_selfAdjoint {m : A} (h : star m = m) : imAdjoint m = 0 := by
  unfold imAdjoint; rw [h, sub_self, smul_zero]

theorem series_inverse {a : SLH A} (h : CoIso a) : series a (inverse a) = mk' a.n (fun i j => if i = j then 1 else 0) (fun _ => 0) 0 := by
  have hv : ∀ (v : ℕ → A) i, i < a.n → ∑ k ∈ range a.n, a.S i k * ∑ m ∈ range a.n, star (a.S m k) * v m = v i := by
    intro v i hi
    simp only [Finset.mul_sum]
    rw [Finset.sum_comm]
    have e : ∀ m ∈ range a.n, ∑ k ∈ range a.n, a.S i k * (star (a.S m k) * v m) = (if i = m then 1 else 0) * v m := by
      intro m hm
      rw [← h i m hi (Finset.mem_range.mp hm), Finset.sum_mul]
      apply Finset.sum_congr rfl; intro k _; rw [mul_assoc]
    rw [Finset.sum_congr rfl e, Aff.sum_ite_eq_left hi]
  refine ext' (by rfl) ?_ ?_ ?_
  · intro i j hi hj
    simp only [series_n] at hi hj
    rw [series, mk'_S hi hj, mk'_S hi hj, ← h i j hi hj]
    apply Finset.sum_congr rfl; intro k hk
    rw [inverse, mk'_S (Finset.mem_range.mp hk) hj]
  · intro i hi
    simp only [series_n] at hi
    rw [series, mk'_L hi, mk'_L hi]
    have e : ∀ k ∈ range a.n, a.S i k * (inverse a).L k = - (a.S i k * ∑ m ∈ range a.n, star (a.S m k) * a.L m) := by
      intro k hk
      rw [inverse, mk'_L (Finset.mem_range.mp hk), mul_neg]
    rw [Finset.sum_congr rfl e, Finset.sum_neg_distrib, hv _ _ hi]
    abel
  · change a.H + -a.H + imAdjoint _ = 0
    rw [add_neg_cancel, zero_add]
    apply imAdjoint_of_selfAdjoint
    have e : ∑ k ∈ range a.n, (∑ i ∈ range a.n, star (a.L i) * a.S i k) * (inverse a).L k =
        - ∑ k ∈ range a.n, star (a.L k) * a.L k := by
      have e1 : ∀ k ∈ range a.n, (∑ i ∈ range a.n, star (a.L i) * a.S i k) * (inverse a).L k =
          - ∑ i ∈ range a.n, star (a.L i) * (a.S i k * ∑ m ∈ range a.n, star (a.S m k) * a.L m) := by
        intro k hk
        rw [inverse, mk'_L (Finset.mem_range.mp hk), mul_neg, Finset.sum_mul]
        congr 1
        apply Finset.sum_congr rfl; intro i _; rw [mul_assoc]
      rw [Finset.sum_congr rfl e1, Finset.sum_neg_distrib, Finset.sum_comm]
      congr 1
      apply Finset.sum_congr rfl; intro i hi
      rw [← Finset.mul_sum, hv _ _ (Finset.mem_range.mp hi)]
    rw [e, star_neg, star_sum]
    congr 1
    apply Finset.sum_congr rfl; intro k _; rw [star_mul, star_star]

theorem inverse_series {a : SLH A} (h : Iso a) : series (inverse a) a = mk' a.n (fun i j => if i = j then 1 else 0) (fun _ => 0) 0 := by
  refine ext' (by rfl) ?_ ?_ ?_
  · intro i j hi hj
    simp only [series_n, inverse_n] at hi hj
    rw [series, mk'_S (n := (inverse a).n) hi hj, mk'_S hi hj, ← h i j hi hj]
    simp only [inverse_n]
    apply Finset.sum_congr rfl; intro k hk
    rw [inverse, mk'_S hi (Finset.mem_range.mp hk)]
  · intro i hi
    simp only [series_n, inverse_n] at hi
    rw [series, mk'_L (n := (inverse a).n) hi, mk'_L hi]
    have e : ∑ k ∈ range a.n, (inverse a).S i k * a.L k = ∑ k ∈ range a.n, star (a.S k i) * a.L k := by
      apply Finset.sum_congr rfl; intro k hk
      rw [inverse, mk'_S hi (Finset.mem_range.mp hk)]
    have e2 : (inverse a).L i = - ∑ k ∈ range a.n, star (a.S k i) * a.L k := mk'_L hi
    rw [e2]
    simp only [inverse_n]
    rw [e]; abel
  · change -a.H + a.H + imAdjoint _ = 0
    rw [neg_add_cancel, zero_add]
    apply imAdjoint_of_selfAdjoint
    have e : ∑ k ∈ range a.n, (∑ i ∈ range a.n, star ((inverse a).L i) * (inverse a).S i k) * a.L k =
        - ∑ i ∈ range a.n, star (∑ k ∈ range a.n, star (a.S k i) * a.L k) * (∑ k ∈ range a.n, star (a.S k i) * a.L k) := by
      simp only [Finset.sum_mul]
      rw [Finset.sum_comm, ← Finset.sum_neg_distrib]
      apply Finset.sum_congr rfl; intro i hi
      have hi := Finset.mem_range.mp hi
      have e2 : (inverse a).L i = - ∑ k ∈ range a.n, star (a.S k i) * a.L k := mk'_L hi
      rw [e2, star_neg, Finset.mul_sum, ← Finset.sum_neg_distrib]
      apply Finset.sum_congr rfl; intro k hk
      rw [inverse, mk'_S hi (Finset.mem_range.mp hk)]
      noncomm_ring
    simp only [inverse_n]
    rw [e, star_neg, star_sum]
    congr 1
    apply Finset.sum_congr rfl; intro k _; rw [star_mul, star_star]

end QNET.SLH
