import Verif.Circuit.Connect
import Verif.SLH.Dynamics

/-!
# Equations of motion of interconnected systems (C70): the laws of one connection

The triples are those of `Verif/SLH/Model.lean` (`series`, `concat`, `feedback` and `inverse` model `src/qnet/algebra/core/circuit_algebra.py` lines 381-494),
the equation of motion is that of `Verif/SLH/Dynamics.lean` (`heisenbergNoise` models lines 526-568, `langevin` is its specification).
-/

namespace QNET.Network

open Finset SLH
open QNET.Perm (Res)

variable {A : Type} [Ring A] [StarRing A] [Algebra ℂ A]

/-! ### Specification -/

/-- The time derivative of an observable `X` of a component `a` whose inputs are the fields `u` (Gough-James): `Σ out† X out - Σ u† X u + X D + D† X`, where `out = S u + L`
are the output fields and `D = -L†S u - iH - ½L†L`. For fields that commute with the component this is the quantum Langevin equation (`evolve_langevin`); inside of a network, the
inputs are the outputs of other components, and do not commute with all observables, so that the order of the factors matters. -/
noncomputable def evolve (a : SLH A) (X : A) (u : ℕ → A) : A :=
  ∑ k ∈ range a.n, star (output a u k) * X * output a u k - ∑ k ∈ range a.n, star (u k) * X * u k + X * driftOutput a u + star (driftOutput a u) * X

/-! ### Lemmas -/

/-- the scattered fields -/
def scat (a : SLH A) (u : ℕ → A) (k : ℕ) : A := ∑ j ∈ range a.n, a.S k j * u j

theorem evolve_congr {a : SLH A} {u u' : ℕ → A} (h : ∀ j, j < a.n → u j = u' j) (X : A) : evolve a X u = evolve a X u' := by
  have h1 : ∀ k, output a u k = output a u' k := output_congr h
  have h2 : ∑ k ∈ range a.n, star (u k) * X * u k = ∑ k ∈ range a.n, star (u' k) * X * u' k :=
    Finset.sum_congr rfl fun k hk => by rw [h k (mem_range.mp hk)]
  unfold evolve
  simp only [h1, h2, driftOutput_congr h]

theorem driftOutput_scat (a : SLH A) (u : ℕ → A) : driftOutput a u = -∑ k ∈ range a.n, star (a.L k) * scat a u k + drift a := by
  unfold driftOutput noiseCoeff scat
  congr 1
  simp only [neg_mul, Finset.sum_neg_distrib, Finset.sum_mul, Finset.mul_sum]
  rw [Finset.sum_comm]
  simp only [mul_assoc]

theorem star_half : star (1 / 2 : ℂ) = 1 / 2 := by rw [Complex.star_def, map_div₀, map_one, map_ofNat]

theorem heisenberg_drift [StarModule ℂ A] {a : SLH A} (hH : star a.H = a.H) (X : A) :
    heisenberg a X = ∑ k ∈ range a.n, star (a.L k) * X * a.L k + X * drift a + star (drift a) * X := by
  have hs : star (∑ i ∈ range a.n, star (a.L i) * a.L i) = ∑ i ∈ range a.n, star (a.L i) * a.L i := by
    rw [star_sum]; simp only [star_mul, star_star]
  have h1 : star (drift a) = Complex.I • a.H - (1 / 2 : ℂ) • ∑ i ∈ range a.n, star (a.L i) * a.L i := by
    unfold drift
    rw [star_sub, star_neg, star_smul, star_smul, hH, hs, star_half, Complex.star_def, Complex.conj_I]
    module
  rw [h1, drift, heisenberg]
  simp only [Finset.sum_add_distrib, Finset.sum_neg_distrib, ← Finset.smul_sum]
  rw [← Finset.sum_mul]
  have h2 : ∑ k ∈ range a.n, X * star (a.L k) * a.L k = X * ∑ k ∈ range a.n, star (a.L k) * a.L k := by
    rw [Finset.mul_sum]; simp only [mul_assoc]
  rw [h2]
  simp only [mul_sub, sub_mul, mul_neg, mul_smul_comm, smul_mul_assoc]
  module

theorem evolve_eq [StarModule ℂ A] {a : SLH A} (hH : star a.H = a.H) (X : A) (u : ℕ → A) :
    evolve a X u = heisenberg a X + ∑ k ∈ range a.n, star (scat a u k) * (X * a.L k - a.L k * X) + ∑ k ∈ range a.n, (star (a.L k) * X - X * star (a.L k)) * scat a u k
      + (∑ k ∈ range a.n, star (scat a u k) * X * scat a u k - ∑ k ∈ range a.n, star (u k) * X * u k) := by
  have h1 : ∑ k ∈ range a.n, star (output a u k) * X * output a u k = ∑ k ∈ range a.n, star (scat a u k) * X * scat a u k
      + ∑ k ∈ range a.n, star (scat a u k) * (X * a.L k) + ∑ k ∈ range a.n, star (a.L k) * X * scat a u k + ∑ k ∈ range a.n, star (a.L k) * X * a.L k := by
    simp only [← Finset.sum_add_distrib]
    refine Finset.sum_congr rfl fun k _ => ?_
    have : output a u k = scat a u k + a.L k := rfl
    rw [this, star_add]; noncomm_ring
  unfold evolve
  rw [heisenberg_drift hH, h1, driftOutput_scat, star_add, star_neg, star_sum]
  simp only [star_mul, star_star, mul_sub, sub_mul, Finset.sum_sub_distrib, mul_add, add_mul, mul_neg, neg_mul, Finset.mul_sum, Finset.sum_mul, mul_assoc]
  abel

/-- The equation of motion is the quantum Langevin equation if the inputs commute with `S` and `X`. -/
theorem evolve_langevin [StarModule ℂ A] {a : SLH A} (hH : star a.H = a.H) (X : A) (u : ℕ → A)
    (hX : ∀ i, i < a.n → Commute (star (u i)) X) (hS : ∀ i k l, i < a.n → Commute (star (u i)) (a.S k l) ∧ Commute (star (u i)) (star (a.S k l))) :
    evolve a X u = langevin a X u := by
  rw [evolve_eq hH, langevin]
  congr 1
  · congr 1
    · congr 1
      refine Finset.sum_congr rfl fun k _ => ?_
      rw [scat, star_sum]
      simp only [star_mul]
    · unfold scat
      simp only [Finset.mul_sum, Finset.sum_mul, mul_assoc]
      rw [Finset.sum_comm]
  · have h2 : ∑ i ∈ range a.n, ∑ j ∈ range a.n, (∑ k ∈ range a.n, star (a.S k i) * X * a.S k j - if i = j then X else 0) * (star (u i) * u j)
        = ∑ i ∈ range a.n, ∑ j ∈ range a.n, (∑ k ∈ range a.n, star (a.S k i) * X * a.S k j) * (star (u i) * u j) - ∑ i ∈ range a.n, star (u i) * X * u i := by
      rw [← Finset.sum_sub_distrib]
      refine Finset.sum_congr rfl fun i hi => ?_
      simp only [sub_mul, Finset.sum_sub_distrib, ite_mul, zero_mul]
      rw [Finset.sum_ite_eq, if_pos hi, ← mul_assoc, (hX i (mem_range.mp hi)).eq]
    rw [h2]
    congr 1
    unfold scat
    simp only [star_sum, star_mul, Finset.mul_sum, Finset.sum_mul]
    rw [Finset.sum_comm]
    have e : ∀ i ∈ range a.n, ∀ k j, star (u i) * star (a.S k i) * X * (a.S k j * u j) = star (a.S k i) * X * a.S k j * (star (u i) * u j) := by
      intro i hi k j
      have c := ((hS i k i (mem_range.mp hi)).2.mul_right (hX i (mem_range.mp hi))).mul_right (hS i k j (mem_range.mp hi)).1
      rw [← mul_assoc (star (a.S k i) * X * a.S k j), ← c.eq]
      simp only [mul_assoc]
    rw [Finset.sum_comm (f := fun x y => ∑ i ∈ range a.n, star (a.S i x) * X * a.S i y * (star (u x) * u y))]
    refine Finset.sum_congr rfl fun j _ => ?_
    rw [Finset.sum_comm]
    exact Finset.sum_congr rfl fun i hi => Finset.sum_congr rfl fun k _ => e i hi k j

variable [StarModule ℂ A]

theorem output_concat_l {a b : SLH A} (u : ℕ → A) {k : ℕ} (hk : k < a.n) : output (concat a b) u k = output a u k := by
  unfold output
  rw [concat_n]
  congr 1
  · rw [Aff.sum_split a.n b.n _ (fun j => a.S k j * u j) (fun _ => 0)]
    · simp
    · intro j hj
      rw [concat_S_cases a b k j (by omega) (by omega), if_pos hk, if_pos hj]
    · intro j hj
      rw [concat_S_cases a b k _ (by omega) (by omega), if_pos hk, if_neg (by omega), zero_mul]
  · rw [concat, mk'_L (by omega), if_pos hk]

theorem output_concat_r {a b : SLH A} (u : ℕ → A) {k : ℕ} (hk : k < b.n) : output (concat a b) u (a.n + k) = output b (fun j => u (a.n + j)) k := by
  unfold output
  rw [concat_n]
  congr 1
  · rw [Aff.sum_split a.n b.n _ (fun _ => 0) (fun j => b.S k j * u (a.n + j))]
    · simp
    · intro j hj
      rw [concat_S_cases a b _ j (by omega) (by omega), if_neg (by omega), if_pos hj, zero_mul]
    · intro j hj
      rw [concat_S_cases a b _ _ (by omega) (by omega), if_neg (by omega), if_neg (by omega)]
      simp
  · rw [concat, mk'_L (by omega), if_neg (by omega)]
    simp

theorem driftOutput_concat (a b : SLH A) (u : ℕ → A) : driftOutput (concat a b) u = driftOutput a u + driftOutput b (fun j => u (a.n + j)) := by
  rw [driftOutput_aff, driftOutput_aff, driftOutput_aff, toAff_concat, concat_n, Aff.concat_K,
    Aff.sum_split a.n b.n _ (fun j => (toAff a).R j * u j) (fun j => (toAff b).R j * u (a.n + j))]
  · abel
  · intro j hj
    rw [Aff.concat_Rl (by simpa using hj)]
  · intro j hj
    rw [Aff.concat_Rr (by simp)]
    simp

/-- Series product: the downstream component is driven by the outputs of the upstream component. -/
theorem evolve_series {a b : SLH A} (hn : a.n = b.n) (ha : Iso a) (X : A) (u : ℕ → A) :
    evolve (series a b) X u = evolve a X (output b u) + evolve b X u := by
  unfold evolve
  rw [driftOutput_series hn ha, series_n]
  have h1 : ∑ k ∈ range a.n, star (output (series a b) u k) * X * output (series a b) u k = ∑ k ∈ range a.n, star (output a (output b u) k) * X * output a (output b u) k :=
    Finset.sum_congr rfl fun k hk => by rw [output_series hn u (mem_range.mp hk)]
  rw [h1, ← hn, star_add]
  noncomm_ring

/-- Concatenation: the components evolve independently. -/
theorem evolve_concat (a b : SLH A) (X : A) (u : ℕ → A) :
    evolve (concat a b) X u = evolve a X u + evolve b X (fun j => u (a.n + j)) := by
  unfold evolve
  rw [driftOutput_concat, concat_n, Aff.sum_split a.n b.n (fun k => star (output (concat a b) u k) * X * output (concat a b) u k)
      (fun k => star (output a u k) * X * output a u k) (fun k => star (output b (fun j => u (a.n + j)) k) * X * output b (fun j => u (a.n + j)) k)
      (fun k hk => by rw [output_concat_l u hk]) (fun k hk => by rw [output_concat_r u hk]),
    Aff.sum_split a.n b.n (fun k => star (u k) * X * u k) (fun k => star (u k) * X * u k) (fun k => star (u (a.n + k)) * X * u (a.n + k))
      (fun k hk => rfl) (fun k hk => rfl), star_add]
  noncomm_ring

/-- Feedback: the signal `w` on the loop is both an input and an output of the component. -/
theorem evolve_feedback {a b : SLH A} {o i : ℕ} (ha : Iso a) (ho : o < a.n) (hi : i < a.n) (hb : feedback a o i = .ok b) (X : A) (u : ℕ → A) (w : A)
    (hw : output a (loopInput i w u) o = w) : evolve b X u = evolve a X (loopInput i w u) ∧ ∀ k, k < a.n - 1 → output a (loopInput i w u) (CPerm.skip o k) = output b u k := by
  obtain ⟨w', -, h2, h3, h4⟩ := C16_io_elimination ha ho hi hb u
  obtain rfl := h2 w hw
  refine ⟨?_, h3⟩
  have hn : b.n = a.n - 1 := (feedback_iso ha ho hi hb).2
  unfold evolve
  rw [h4, hn]
  have e1 := Aff.sum_up ho (fun k => star (output a (loopInput i w u) k) * X * output a (loopInput i w u) k)
  have e2 := Aff.sum_up hi (fun k => star (loopInput i w u k) * X * loopInput i w u k)
  rw [e1, e2, hw, loopInput_self]
  simp only [loopInput_up]
  have e3 : ∑ l ∈ range (a.n - 1), star (output a (loopInput i w u) (Aff.up o l)) * X * output a (loopInput i w u) (Aff.up o l)
      = ∑ k ∈ range (a.n - 1), star (output b u k) * X * output b u k :=
    Finset.sum_congr rfl fun k hk => by rw [← CPerm.skip_eq_up, h3 k (mem_range.mp hk)]
  rw [e3]
  abel

/-- A component does not affect the observables that commute with it, whatever its inputs are. -/
theorem evolve_causal {a : SLH A} (ha : Iso a) (hH : star a.H = a.H) {X : A} (u : ℕ → A) (h1 : Commute X a.H) (h2 : ∀ i, i < a.n → Commute X (a.L i) ∧ Commute X (star (a.L i)))
    (h3 : ∀ i j, i < a.n → j < a.n → Commute X (a.S i j)) : evolve a X u = 0 := by
  rw [evolve_eq hH]
  have e1 : heisenberg a X = 0 := by
    unfold heisenberg
    rw [h1.eq, sub_self, smul_zero, zero_add]
    refine Finset.sum_eq_zero fun k hk => ?_
    obtain ⟨c, c'⟩ := h2 k (mem_range.mp hk)
    rw [c'.eq, mul_assoc _ X, mul_assoc _ _ X, c.eq]
    module
  have e2 : ∑ k ∈ range a.n, star (scat a u k) * (X * a.L k - a.L k * X) = 0 :=
    Finset.sum_eq_zero fun k hk => by rw [(h2 k (mem_range.mp hk)).1.eq, sub_self, mul_zero]
  have e3 : ∑ k ∈ range a.n, (star (a.L k) * X - X * star (a.L k)) * scat a u k = 0 :=
    Finset.sum_eq_zero fun k hk => by rw [(h2 k (mem_range.mp hk)).2.eq, sub_self, zero_mul]
  have e4 : ∑ k ∈ range a.n, star (scat a u k) * X * scat a u k = ∑ k ∈ range a.n, star (u k) * X * u k := by
    have := iso_inner ha u (fun j => X * u j)
    simp only [← mul_assoc (star (u _))] at this
    rw [← this]
    refine Finset.sum_congr rfl fun k hk => ?_
    rw [mul_assoc, scat, Finset.mul_sum]
    congr 1
    refine Finset.sum_congr rfl fun j hj => ?_
    rw [← mul_assoc, (h3 k j (mem_range.mp hk) (mem_range.mp hj)).eq, mul_assoc]
  rw [e1, e2, e3, e4]
  simp

theorem evolve_passThrough (n : ℕ) (X : A) (u : ℕ → A) : (∀ k, k < n → output (passThrough n) u k = u k) ∧ evolve (passThrough n) X u = 0 := by
  have hL : ∀ i, (passThrough n : SLH A).L i = 0 := fun i => by simp [passThrough, mk']
  have hS : ∀ i j, i < n → j < n → (passThrough n : SLH A).S i j = if i = j then 1 else 0 := fun i j hi hj => mk'_S hi hj
  have hn : (passThrough n : SLH A).n = n := rfl
  constructor
  · intro k hk
    unfold output
    rw [hL, add_zero, hn, Finset.sum_congr rfl (fun j hj => by rw [hS k j hk (mem_range.mp hj)]), Aff.sum_ite_eq_left hk]
  · refine evolve_causal (passThrough_unitary n).1 (by simp [passThrough, mk']) u (by simp [passThrough, mk']) (fun i _ => by simp [hL]) fun i j hi hj => ?_
    rw [hS i j hi hj]
    split <;> simp

/-- Inverse: driven with the outputs of the component, the inverse returns the inputs and evolves backwards. -/
theorem evolve_inverse {a : SLH A} (ha : Unitary a) (X : A) (u : ℕ → A) :
    evolve (inverse a) X (output a u) = -evolve a X u ∧ ∀ k, k < a.n → output (inverse a) (output a u) k = u k := by
  have h : series (inverse a) a = passThrough a.n := inverse_series ha.1
  have h1 := evolve_series (a := inverse a) (b := a) rfl (Iso.inverse ha.2) X u
  rw [h, (evolve_passThrough a.n X u).2] at h1
  refine ⟨eq_neg_of_add_eq_zero_left h1.symm, fun k hk => ?_⟩
  rw [← output_series (a := inverse a) (b := a) rfl u hk, h, (evolve_passThrough a.n X u).1 k hk]

/-- Permutations have no dynamics. -/
theorem evolve_ofPerm {p : List ℕ} (hp : Perm.Valid p) (X : A) (u : ℕ → A) : evolve (ofPerm p) X u = 0 := by
  refine evolve_causal (Iso.ofPerm hp) (by simp [ofPerm, mk']) u (by simp [ofPerm, mk']) (fun i _ => by simp [Circuit.ofPerm_L]) fun i j _ _ => ?_
  rw [SLH.ofPerm_S hp]
  split <;> simp

end QNET.Network
