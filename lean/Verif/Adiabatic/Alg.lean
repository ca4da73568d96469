import Verif.Adiabatic.Model
import Mathlib.Tactic.NoncommRing
import Mathlib.Tactic.LinearCombination
import Mathlib.Tactic.Module

/-! # The algebraic part of adiabatic elimination -/

namespace QNET.Adiabatic

open Finset

section Ring

variable {R : Type} [Ring R]

/-- `Σ W W†`-type cancellation: `Ỹ + Ỹ† + Ỹ FF† Ỹ† = 0`. -/
theorem pinv_add {Y Z Yt Zt P FF : R} (h1 : Yt * Y = 1 - P) (h2 : Z * Zt = 1 - P) (h3 : Y + Z = -FF) (h4 : P * Zt = 0) (h5 : Yt * P = 0) :
    Yt + Zt + Yt * FF * Zt = 0 := by
  have h : Yt * (Y + Z) * Zt = Zt + Yt := by
    rw [mul_add, add_mul, h1, mul_assoc Yt Z Zt, h2, sub_mul, mul_sub, h4, h5, one_mul, mul_one, sub_zero, sub_zero]
  rw [h3] at h
  have : Yt * FF * Zt = -(Zt + Yt) := by rw [← h]; noncomm_ring
  rw [this]; abel

/-- the other order -/
theorem pinv_add' {Y Z Yt Zt P FF : R} (h1 : Y * Yt = 1 - P) (h2 : Zt * Z = 1 - P) (h3 : Y + Z = -FF) (h4 : Zt * P = 0) (h5 : P * Yt = 0) :
    Yt + Zt + Zt * FF * Yt = 0 := by
  have h : Zt * (Y + Z) * Yt = Zt + Yt := by
    rw [mul_add, add_mul, mul_assoc Zt Y Yt, h1, h2, sub_mul, mul_sub, h4, h5, one_mul, mul_one, sub_zero, sub_zero]
  rw [h3] at h
  have : Zt * FF * Yt = -(Zt + Yt) := by rw [← h]; noncomm_ring
  rw [this]; abel

end Ring

variable {A : Type} [Ring A] [StarRing A] [Algebra ℂ A]

/-- The relations of the tuple `Y, A, B, F, G, N` -/
structure Rel (o : Ops A) : Prop where
  yy : o.Y + star o.Y = -∑ i ∈ range o.n, o.F i * star (o.F i)
  aa : o.A + star o.A = -(∑ i ∈ range o.n, o.F i * star (o.G i) + ∑ i ∈ range o.n, o.G i * star (o.F i))
  bb : o.B + star o.B = -∑ i ∈ range o.n, o.G i * star (o.G i)
  iso : ∀ k l, k < o.n → l < o.n → ∑ i ∈ range o.n, o.N k i * star (o.N l i) = if k = l then 1 else 0
  coiso : ∀ k l, k < o.n → l < o.n → ∑ j ∈ range o.n, star (o.N j k) * o.N j l = if k = l then 1 else 0

theorem antidiag_one (f : ℕ × ℕ → A) : ∑ q ∈ antidiagonal 1, f q = f (0, 1) + f (1, 0) := by
  rw [show (antidiagonal 1 : Finset (ℕ × ℕ)) = {(0, 1), (1, 0)} from rfl, sum_pair (by decide)]

theorem antidiag_two (f : ℕ × ℕ → A) : ∑ q ∈ antidiagonal 2, f q = f (0, 2) + f (1, 1) + f (2, 0) := by
  rw [show (antidiagonal 2 : Finset (ℕ × ℕ)) = {(0, 2), (1, 1), (2, 0)} from rfl, sum_insert (by decide), sum_pair (by decide), add_assoc]

theorem coeffK_zero (m : KSLH A) : coeffK m 0 = -((1 / 2 : ℂ) • ∑ i ∈ range m.n, star ((m.L i).coeff 0) * (m.L i).coeff 0) + Complex.I • m.H.coeff 0 := by
  simp only [coeffK, Finset.Nat.antidiagonal_zero, sum_singleton]

theorem coeffK_one (m : KSLH A) : coeffK m 1 = -((1 / 2 : ℂ) • (∑ i ∈ range m.n, star ((m.L i).coeff 0) * (m.L i).coeff 1
    + ∑ i ∈ range m.n, star ((m.L i).coeff 1) * (m.L i).coeff 0)) + Complex.I • m.H.coeff 1 := by
  simp only [coeffK, antidiag_one, sum_add_distrib]

theorem coeff_two_zero {m : KSLH A} (h : Scaled m) {i : ℕ} (hi : i < m.n) : (m.L i).coeff 2 = 0 :=
  Polynomial.coeff_eq_zero_of_natDegree_lt (Nat.lt_of_le_of_lt (h.degL i hi) (by decide))

theorem coeffK_two {m : KSLH A} (h : Scaled m) : coeffK m 2 = -((1 / 2 : ℂ) • ∑ i ∈ range m.n, star ((m.L i).coeff 1) * (m.L i).coeff 1) + Complex.I • m.H.coeff 2 := by
  simp only [coeffK, antidiag_two]
  congr 3
  apply sum_congr rfl
  intro i hi
  rw [coeff_two_zero h (mem_range.mp hi)]
  simp

variable [StarModule ℂ A]

theorem half_add_half (x : A) : (1 / 2 : ℂ) • x + (1 / 2 : ℂ) • x = x := by
  rw [← add_smul]; norm_num

theorem star_half (x : A) : star ((1 / 2 : ℂ) • x) = (1 / 2 : ℂ) • star x := by
  rw [star_smul]; congr 1; simp

theorem star_I (x : A) : star (Complex.I • x) = -(Complex.I • star x) := by
  rw [star_smul, ← neg_smul]; congr 1; simp

/-- adding the adjoint removes the Hermitian Hamiltonian -/
theorem add_star_K {x h : A} (hx : star x = x) (hh : star h = h) :
    (-((1 / 2 : ℂ) • x) + Complex.I • h) + star (-((1 / 2 : ℂ) • x) + Complex.I • h) = -x := by
  rw [star_add, star_neg, star_half, star_I, hx, hh]
  conv_rhs => rw [← half_add_half x]
  abel

theorem prepare_rel {m : KSLH A} (h : Scaled m) : Rel (prepare m) where
  yy := by
    show coeffK m 2 + star (coeffK m 2) = _
    rw [coeffK_two h, add_star_K (by simp [star_sum]) (h.herm 2)]
    simp [prepare]
  aa := by
    show coeffK m 1 + star (coeffK m 1) = _
    rw [coeffK_one, add_star_K (by rw [star_add]; simp only [star_sum, star_mul, star_star]; rw [add_comm]) (h.herm 1)]
    simp [prepare]
    abel
  bb := by
    show coeffK m 0 + star (coeffK m 0) = _
    rw [coeffK_zero, add_star_K (by simp [star_sum]) (h.herm 0)]
    simp [prepare]
  iso := by
    intro k l hk hl
    have := h.iso k l hk hl
    simpa [prepare] using this
  coiso := by
    intro k l hk hl
    have := h.coiso k l hk hl
    simpa [prepare] using this

section

variable {o : Ops A} {Yt P0 : A}

omit [Algebra ℂ A] [StarModule ℂ A] in
theorem E_zp (E : Eliminable o Yt P0) : star Yt * P0 = 0 := by
  have := congrArg star E.null'
  rwa [star_mul, E.herm, star_zero] at this

omit [Algebra ℂ A] [StarModule ℂ A] in
theorem E_pz (E : Eliminable o Yt P0) : P0 * star Yt = 0 := by
  have := congrArg star E.null
  rwa [star_mul, E.herm, star_zero] at this

omit [Algebra ℂ A] [StarModule ℂ A] in
theorem E_zz (E : Eliminable o Yt P0) : star Yt * star o.Y = 1 - P0 := by
  have := congrArg star E.inv
  rwa [star_mul, star_sub, star_one, E.herm] at this

omit [Algebra ℂ A] [StarModule ℂ A] in
theorem E_zz' (E : Eliminable o Yt P0) : star o.Y * star Yt = 1 - P0 := by
  have := congrArg star E.inv'
  rwa [star_mul, star_sub, star_one, E.herm] at this

omit [Algebra ℂ A] [StarModule ℂ A] in
theorem E_fp (E : Eliminable o Yt P0) {i : ℕ} (hi : i < o.n) : star (o.F i) * P0 = 0 := by
  have := congrArg star (E.noF i hi)
  rwa [star_mul, E.herm, star_zero] at this

omit [Algebra ℂ A] [StarModule ℂ A] in
theorem hp (R : Rel o) (E : Eliminable o Yt P0) :
    Yt + star Yt + Yt * (∑ i ∈ range o.n, o.F i * star (o.F i)) * star Yt = 0 :=
  pinv_add E.inv' (E_zz' E) R.yy (E_pz E) E.null

omit [Algebra ℂ A] [StarModule ℂ A] in
theorem hp' (R : Rel o) (E : Eliminable o Yt P0) :
    Yt + star Yt + star Yt * (∑ i ∈ range o.n, o.F i * star (o.F i)) * Yt = 0 :=
  pinv_add' E.inv (E_zz E) R.yy (E_zp E) E.null'

omit [StarRing A] [Algebra ℂ A] [StarModule ℂ A] in
theorem delta_sum {n i : ℕ} (hi : i < n) (f : ℕ → A) : ∑ l ∈ range n, (if i = l then 1 else 0) * f l = f i := by
  simp [hi]

omit [StarRing A] [Algebra ℂ A] [StarModule ℂ A] in
theorem sum_delta {n i : ℕ} (hi : i < n) (f : ℕ → A) : ∑ l ∈ range n, f l * (if i = l then 1 else 0) = f i := by
  simp [hi]

omit [Algebra ℂ A] [StarModule ℂ A] in
theorem star_dN (i j : ℕ) : star (dN o Yt i j) = (if j = i then 1 else 0) + star (o.F j) * star Yt * o.F i := by
  rw [dN, star_add, star_mul, star_mul, star_star, mul_assoc]
  congr 1
  by_cases h : i = j
  · simp [h]
  · rw [if_neg h, if_neg (Ne.symm h), star_zero]

omit [Algebra ℂ A] [StarModule ℂ A] in
theorem dN_coisom (R : Rel o) (E : Eliminable o Yt P0) {i j : ℕ} (hi : i < o.n) (hj : j < o.n) :
    ∑ l ∈ range o.n, dN o Yt i l * star (dN o Yt j l) = if i = j then 1 else 0 := by
  have h := hp R E
  have e : ∀ l, dN o Yt i l * star (dN o Yt j l) = (if i = l then 1 else 0) * ((if l = j then 1 else 0) + star (o.F l) * star Yt * o.F j)
      + star (o.F i) * Yt * (o.F l * (if j = l then 1 else 0)) + star (o.F i) * (Yt * (o.F l * star (o.F l)) * star Yt) * o.F j := by
    intro l
    rw [star_dN, dN]
    simp only [eq_comm (a := j) (b := l)]
    noncomm_ring
  simp only [e, sum_add_distrib]
  rw [delta_sum hi, ← mul_sum, sum_delta hj, ← sum_mul, ← mul_sum, ← sum_mul, ← mul_sum]
  have h2 : Yt * (∑ l ∈ range o.n, o.F l * star (o.F l)) * star Yt = -(Yt + star Yt) := by
    rw [eq_neg_iff_add_eq_zero, add_comm]; exact h
  rw [h2]
  noncomm_ring

omit [Algebra ℂ A] [StarModule ℂ A] in
theorem dN_isom (R : Rel o) (E : Eliminable o Yt P0) {i j : ℕ} (hi : i < o.n) (hj : j < o.n) :
    ∑ l ∈ range o.n, star (dN o Yt l i) * dN o Yt l j = if i = j then 1 else 0 := by
  have h := hp' R E
  have e : ∀ l, star (dN o Yt l i) * dN o Yt l j = (if i = l then 1 else 0) * ((if l = j then 1 else 0) + star (o.F l) * Yt * o.F j)
      + star (o.F i) * star Yt * (o.F l * (if j = l then 1 else 0)) + star (o.F i) * (star Yt * (o.F l * star (o.F l)) * Yt) * o.F j := by
    intro l
    rw [star_dN, dN]
    simp only [eq_comm (a := j) (b := l)]
    noncomm_ring
  simp only [e, sum_add_distrib]
  rw [delta_sum hi, ← mul_sum, sum_delta hj, ← sum_mul, ← mul_sum, ← sum_mul, ← mul_sum]
  have h2 : star Yt * (∑ l ∈ range o.n, o.F l * star (o.F l)) * Yt = -(Yt + star Yt) := by
    rw [eq_neg_iff_add_eq_zero, add_comm]; exact h
  rw [h2]
  noncomm_ring

omit [Algebra ℂ A] [StarModule ℂ A] in
theorem E_fgp (E : Eliminable o Yt P0) : (∑ i ∈ range o.n, o.G i * star (o.F i)) * P0 = 0 := by
  rw [sum_mul]
  apply sum_eq_zero
  intro i hi
  rw [mul_assoc, E_fp E (mem_range.mp hi), mul_zero]

omit [Algebra ℂ A] [StarModule ℂ A] in
theorem E_pfg (E : Eliminable o Yt P0) : P0 * (∑ i ∈ range o.n, o.F i * star (o.G i)) = 0 := by
  rw [mul_sum]
  apply sum_eq_zero
  intro i hi
  rw [← mul_assoc, E.noF _ (mem_range.mp hi), zero_mul]

omit [Algebra ℂ A] [StarModule ℂ A] in
/-- `W (G† - F† Ỹ† A†) P0 = (G† - F† Ỹ A) P0` -/
theorem dN_ldlim (R : Rel o) (E : Eliminable o Yt P0) {j : ℕ} (hj : j < o.n) :
    ∑ l ∈ range o.n, dN o Yt j l * ((star (o.G l) - star (o.F l) * star Yt * star o.A) * P0)
      = (star (o.G j) - star (o.F j) * Yt * o.A) * P0 := by
  have h := hp R E
  have h2 : Yt * (∑ l ∈ range o.n, o.F l * star (o.F l)) * star Yt = -(Yt + star Yt) := by
    rw [eq_neg_iff_add_eq_zero, add_comm]; exact h
  have e : ∀ l, dN o Yt j l * ((star (o.G l) - star (o.F l) * star Yt * star o.A) * P0) =
      (if j = l then 1 else 0) * ((star (o.G l) - star (o.F l) * star Yt * star o.A) * P0)
      + star (o.F j) * (Yt * (o.F l * star (o.G l))) * P0 - star (o.F j) * (Yt * (o.F l * star (o.F l)) * star Yt) * star o.A * P0 := by
    intro l
    rw [dN]
    noncomm_ring
  simp only [e, sum_add_distrib, sum_sub_distrib]
  rw [delta_sum hj, ← sum_mul, ← mul_sum, ← mul_sum, ← sum_mul, ← sum_mul, ← mul_sum, ← sum_mul, ← mul_sum, h2]
  have ha : star o.A * P0 = -(o.A * P0) - (∑ i ∈ range o.n, o.F i * star (o.G i)) * P0 := by
    have h3 : star o.A = -o.A - (∑ i ∈ range o.n, o.F i * star (o.G i)) - ∑ i ∈ range o.n, o.G i * star (o.F i) := by
      have := R.aa
      rw [add_comm, ← eq_sub_iff_add_eq] at this
      rw [this]; abel
    rw [h3, sub_mul, sub_mul, E_fgp E, sub_zero, neg_mul]
  have e2 : ∀ X : A, (star (o.G j) - star (o.F j) * star Yt * star o.A) * P0 + star (o.F j) * (Yt * X) * P0
      - star (o.F j) * (-(Yt + star Yt)) * star o.A * P0
      = star (o.G j) * P0 + star (o.F j) * Yt * X * P0 + star (o.F j) * Yt * (star o.A * P0) := by
    intro X; noncomm_ring
  rw [e2, ha]
  noncomm_ring

omit [Algebra ℂ A] [StarModule ℂ A] in
theorem star_ldlim (E : Eliminable o Yt P0) (j : ℕ) :
    star (ldlim o Yt P0 j) = P0 * ((star (o.G j) - star (o.F j) * star Yt * star o.A) * P0) := by
  simp only [ldlim, star_mul, star_sub, E.herm, mul_assoc]

omit [Algebra ℂ A] [StarModule ℂ A] in
/-- the limiting coefficient `M̃ = -Ñ L̃` of the creation processes -/
theorem nlim_ldlim (R : Rel o) (E : Eliminable o Yt P0) {i : ℕ} (hi : i < o.n) :
    ∑ j ∈ range o.n, nlim o Yt P0 i j * star (ldlim o Yt P0 j)
      = P0 * (∑ l ∈ range o.n, o.N i l * ((star (o.G l) - star (o.F l) * Yt * o.A) * P0)) := by
  have e : ∀ j ∈ range o.n, nlim o Yt P0 i j * star (ldlim o Yt P0 j)
      = ∑ l ∈ range o.n, P0 * (o.N i l * (dN o Yt l j * ((star (o.G j) - star (o.F j) * star Yt * star o.A) * P0))) := by
    intro j hj
    have hk := E.keepN i j hi (mem_range.mp hj)
    rw [mul_sub, mul_one, sub_eq_zero] at hk
    rw [nlim, star_ldlim E, ← mul_assoc, mul_assoc _ P0 P0, E.proj, ← hk, sum_mul]
    simp only [mul_assoc]
  rw [sum_congr rfl e, sum_comm, mul_sum]
  apply sum_congr rfl
  intro l hl
  rw [← mul_sum, ← mul_sum, dN_ldlim R E (mem_range.mp hl)]

omit [Algebra ℂ A] [StarModule ℂ A] in
/-- the limiting drift satisfies the Hudson-Parthasarathy condition -/
theorem klim_add (R : Rel o) (E : Eliminable o Yt P0) :
    klim o Yt P0 + star (klim o Yt P0) = -∑ i ∈ range o.n, ldlim o Yt P0 i * star (ldlim o Yt P0 i) := by
  have h := hp R E
  have h2 : Yt * (∑ l ∈ range o.n, o.F l * star (o.F l)) * star Yt = -(Yt + star Yt) := by
    rw [eq_neg_iff_add_eq_zero, add_comm]; exact h
  have e : ∀ i ∈ range o.n, ldlim o Yt P0 i * star (ldlim o Yt P0 i)
      = P0 * (o.G i * star (o.G i)) * P0 - P0 * (o.G i * star (o.F i)) * (star Yt * star o.A * P0) - P0 * o.A * Yt * (o.F i * star (o.G i)) * P0
        + P0 * o.A * (Yt * (o.F i * star (o.F i)) * star Yt) * star o.A * P0 := by
    intro i hi
    have hk := E.keepG i (mem_range.mp hi)
    rw [mul_sub, mul_one, sub_eq_zero] at hk
    rw [star_ldlim E, ldlim, ← mul_assoc, mul_assoc _ P0 P0, E.proj, ← hk]
    noncomm_ring
  rw [sum_congr rfl e]
  simp only [sum_add_distrib, sum_sub_distrib]
  rw [← sum_mul, ← mul_sum, ← sum_mul, ← mul_sum, ← sum_mul, ← mul_sum, ← sum_mul, ← sum_mul, ← mul_sum, ← sum_mul, ← mul_sum, h2]
  have hgg : ∑ i ∈ range o.n, o.G i * star (o.G i) = -(o.B + star o.B) := by rw [R.bb, neg_neg]
  rw [hgg]
  have h3 : star o.A = -o.A - (∑ i ∈ range o.n, o.F i * star (o.G i)) - ∑ i ∈ range o.n, o.G i * star (o.F i) := by
    have := R.aa
    rw [add_comm, ← eq_sub_iff_add_eq] at this
    rw [this]; abel
  have h4 : o.A = -star o.A - (∑ i ∈ range o.n, o.F i * star (o.G i)) - ∑ i ∈ range o.n, o.G i * star (o.F i) := by
    rw [h3]; abel
  have ha : star o.A * P0 = -(o.A * P0) - (∑ i ∈ range o.n, o.F i * star (o.G i)) * P0 := by
    rw [h3, sub_mul, sub_mul, E_fgp E, sub_zero, neg_mul]
  have ha' : P0 * o.A = -(P0 * star o.A) - P0 * (∑ i ∈ range o.n, o.G i * star (o.F i)) := by
    conv_lhs => rw [h4]
    rw [mul_sub, mul_sub, E_pfg E, sub_zero, mul_neg]
  have s1 : star (klim o Yt P0) = P0 * (star o.B - star o.A * star Yt * star o.A) * P0 := by
    simp only [klim, star_mul, star_sub, E.herm, mul_assoc]
  rw [s1, klim]
  have e3 : P0 * o.A * -(Yt + star Yt) * star o.A * P0 = -(P0 * o.A * Yt * (star o.A * P0)) - P0 * o.A * (star Yt * star o.A * P0) := by noncomm_ring
  have e4 : P0 * o.A * (star Yt * star o.A * P0) = (-(P0 * star o.A) - P0 * (∑ i ∈ range o.n, o.G i * star (o.F i))) * (star Yt * star o.A * P0) := by
    rw [← ha']
  have e5 : P0 * o.A * Yt * (star o.A * P0) = P0 * o.A * Yt * (-(o.A * P0) - (∑ i ∈ range o.n, o.F i * star (o.G i)) * P0) := by
    rw [ha]
  rw [e3, e4, e5]
  noncomm_ring

end

end QNET.Adiabatic
