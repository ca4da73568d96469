import Verif.Spin.Model
import Mathlib.Data.Matrix.Mul
import Mathlib.LinearAlgebra.Matrix.ConjTranspose
import Mathlib.Tactic.NoncommRing

/-! # C38: the spin rules and coefficients are those of the spin matrices -/

namespace QNET.Spin

open ComplexConjugate

/-! ## Specification: the standard spin matrices

In the basis of the eigenstates of `Jz` with quantum numbers `m = i - N/2`, `i = 0, .., N`. -/

/-- `Jz = diag(-s, -s + 1, .., s)` -/
noncomputable def specZ (N : ℕ) : Matrix (Fin (N + 1)) (Fin (N + 1)) ℂ := fun i j => if i = j then (i.1 : ℂ) - (N : ℂ) / 2 else 0

/-- `<i+1| J+ |i> = √((N - i) (i + 1))` -/
noncomputable def ladder (N i : ℕ) : ℂ := (Real.sqrt (((N : ℝ) - i) * (i + 1)) : ℝ)

/-- `J+` -/
noncomputable def specP (N : ℕ) : Matrix (Fin (N + 1)) (Fin (N + 1)) ℂ := fun i j => if i.1 = j.1 + 1 then ladder N j else 0

/-- `J-` -/
noncomputable def specM (N : ℕ) : Matrix (Fin (N + 1)) (Fin (N + 1)) ℂ := fun i j => if j.1 = i.1 + 1 then ladder N i else 0

theorem ladder_sq (N i : ℕ) (h : i ≤ N) : ladder N i * ladder N i = ((N : ℂ) - i) * (i + 1) := by
  unfold ladder
  have : (0 : ℝ) ≤ ((N : ℝ) - i) * (i + 1) := by
    apply mul_nonneg
    · rw [sub_nonneg]; exact_mod_cast h
    · positivity
  rw [← Complex.ofReal_mul, Real.mul_self_sqrt this]
  push_cast; ring

theorem ladder_top (N : ℕ) : ladder N N = 0 := by simp [ladder]

theorem ladder_ne (N i : ℕ) (h : i < N) : ladder N i ≠ 0 := by
  intro e
  have := ladder_sq N i h.le
  rw [e, zero_mul] at this
  have h1 : (N : ℂ) - i ≠ 0 := by
    rw [sub_ne_zero]; exact_mod_cast h.ne'
  have h2 : (i : ℂ) + 1 ≠ 0 := by exact_mod_cast Nat.succ_ne_zero i
  exact mul_ne_zero h1 h2 this.symm

theorem mul_single_left {d : ℕ} (M N : Matrix (Fin d) (Fin d) ℂ) (i l m : Fin d) (h : ∀ m', m' ≠ m → M i m' = 0) :
    (M * N) i l = M i m * N m l := by
  rw [Matrix.mul_apply, Finset.sum_eq_single m]
  · intro b _ hb
    rw [h b hb, zero_mul]
  · intro h; exact absurd (Finset.mem_univ _) h

theorem mul_single_right {d : ℕ} (M N : Matrix (Fin d) (Fin d) ℂ) (i l m : Fin d) (h : ∀ m', m' ≠ m → N m' l = 0) :
    (M * N) i l = M i m * N m l := by
  rw [Matrix.mul_apply, Finset.sum_eq_single m]
  · intro b _ hb
    rw [h b hb, mul_zero]
  · intro h; exact absurd (Finset.mem_univ _) h

theorem z_mul (N : ℕ) (M : Matrix (Fin (N + 1)) (Fin (N + 1)) ℂ) (i j) : (specZ N * M) i j = ((i.1 : ℂ) - N / 2) * M i j := by
  rw [mul_single_left _ _ i j i (fun m hm => if_neg (fun e => hm e.symm))]
  simp [specZ]

theorem mul_z (N : ℕ) (M : Matrix (Fin (N + 1)) (Fin (N + 1)) ℂ) (i j) : (M * specZ N) i j = M i j * ((j.1 : ℂ) - N / 2) := by
  rw [mul_single_right _ _ i j j (fun m hm => if_neg hm)]
  simp [specZ]

theorem p_mul_m (N : ℕ) (i j : Fin (N + 1)) : (specP N * specM N) i j = if i = j then (i.1 : ℂ) * (N - i + 1) else 0 := by
  cases hi : i.1 with
  | zero =>
    rw [Matrix.mul_apply, Finset.sum_eq_zero]
    · simp
    · intro m _
      simp [specP, hi]
  | succ a =>
    have ha : a < N + 1 := by have := i.2; omega
    rw [mul_single_left _ _ i j ⟨a, ha⟩ (fun m hm => if_neg (fun e => hm (Fin.ext (by simp; omega))))]
    show (if i.1 = a + 1 then ladder N a else 0) * (if j.1 = a + 1 then ladder N a else 0) = _
    rw [if_pos hi]
    by_cases h : i = j
    · subst h
      rw [if_pos hi, if_pos rfl, ladder_sq N a (by omega)]
      push_cast; ring
    · rw [if_neg h, if_neg (fun e => h (Fin.ext (by omega))), mul_zero]

theorem m_mul_p (N : ℕ) (i j : Fin (N + 1)) : (specM N * specP N) i j = if i = j then ((N : ℂ) - i) * (i + 1) else 0 := by
  by_cases hi : i.1 = N
  · rw [Matrix.mul_apply, Finset.sum_eq_zero]
    · simp [hi]
    · intro m _
      have : ¬ m.1 = i.1 + 1 := by have := m.2; omega
      simp [specM, this]
  · have ha : i.1 + 1 < N + 1 := by have := i.2; omega
    rw [mul_single_left _ _ i j ⟨i.1 + 1, ha⟩ (fun m hm => if_neg (fun e => hm (Fin.ext (by simp; omega))))]
    show (if i.1 + 1 = i.1 + 1 then ladder N i else 0) * (if i.1 + 1 = j.1 + 1 then ladder N j else 0) = _
    rw [if_pos rfl]
    by_cases h : i = j
    · subst h
      rw [if_pos rfl, if_pos rfl, ladder_sq N i (by omega)]
    · rw [if_neg h, if_neg (fun e => h (Fin.ext (by omega))), mul_zero]

/-- C38: the spin matrices satisfy the relations of su(2), `J-` is the adjoint of `J+`, `Jz` is Hermitian, and the total spin is `s (s + 1)`
with `s = N / 2`, for every spin. -/
theorem C38_su2 (N : ℕ) :
    specZ N * specP N - specP N * specZ N = specP N ∧
    specZ N * specM N - specM N * specZ N = -specM N ∧
    specP N * specM N - specM N * specP N = (2 : ℂ) • specZ N ∧
    (specP N).conjTranspose = specM N ∧ (specZ N).conjTranspose = specZ N ∧
    specZ N * specZ N + (1 / 2 : ℂ) • (specP N * specM N + specM N * specP N) = ((N : ℂ) / 2 * (N / 2 + 1)) • 1 := by
  refine ⟨?_, ?_, ?_, ?_, ?_, ?_⟩
  · ext i j
    rw [Matrix.sub_apply, z_mul, mul_z]
    show _ * (if i.1 = j.1 + 1 then ladder N j else 0) - (if i.1 = j.1 + 1 then ladder N j else 0) * _ = if i.1 = j.1 + 1 then ladder N j else 0
    by_cases h : i.1 = j.1 + 1
    · simp only [h, if_true]; push_cast; ring
    · simp [h]
  · ext i j
    rw [Matrix.sub_apply, z_mul, mul_z, Matrix.neg_apply]
    show _ * (if j.1 = i.1 + 1 then ladder N i else 0) - (if j.1 = i.1 + 1 then ladder N i else 0) * _ = -(if j.1 = i.1 + 1 then ladder N i else 0)
    by_cases h : j.1 = i.1 + 1
    · simp only [h, if_true]; push_cast; ring
    · simp [h]
  · ext i j
    rw [Matrix.sub_apply, p_mul_m, m_mul_p, Matrix.smul_apply]
    show _ = (2 : ℂ) * (if i = j then (i.1 : ℂ) - (N : ℂ) / 2 else 0)
    by_cases h : i = j
    · simp only [h, if_true]; ring
    · simp [h]
  · ext i j
    rw [Matrix.conjTranspose_apply]
    show star (if j.1 = i.1 + 1 then ladder N i else 0) = if j.1 = i.1 + 1 then ladder N i else 0
    split
    · exact Complex.conj_ofReal _
    · simp
  · ext i j
    rw [Matrix.conjTranspose_apply]
    show star (if j = i then (j.1 : ℂ) - (N : ℂ) / 2 else 0) = if i = j then (i.1 : ℂ) - (N : ℂ) / 2 else 0
    by_cases h : i = j
    · subst h
      simp
    · rw [if_neg h, if_neg (fun e => h e.symm), star_zero]
  · ext i j
    rw [Matrix.add_apply, z_mul, Matrix.smul_apply, Matrix.add_apply, p_mul_m, m_mul_p, Matrix.smul_apply, Matrix.one_apply]
    show _ * (if i = j then (i.1 : ℂ) - (N : ℂ) / 2 else 0) + (1 / 2 : ℂ) * _ = _ * _
    by_cases h : i = j
    · subst h
      simp only [if_true]; ring
    · simp [h]

/-! ## The code -/

theorem root_ofReal {x : ℝ} (h : 0 ≤ x) : root x = (Real.sqrt x : ℝ) := by
  unfold root
  rw [Real.sqrt_eq_rpow, Complex.ofReal_cpow h]
  norm_num

theorem jp_int (hs : Space) (j : ℕ) (h : j < hs.dim) : jpCoeff hs (.int j) true = .ok (ladder hs.twiceSpin j) := by
  unfold Space.dim at h
  have h1 : (0 : ℤ) ≤ (j : ℤ) ∧ (j : ℤ) < (hs.dim : ℕ) := by unfold Space.dim; omega
  unfold jpCoeff
  simp only [if_true]
  rw [if_pos h1]
  congr 1
  unfold ladder
  rw [← root_ofReal]
  · congr 1
    unfold Space.s
    push_cast; ring
  · apply mul_nonneg
    · rw [sub_nonneg]; exact_mod_cast (by omega)
    · positivity

/-- `<i-1| J- |i>` -/
noncomputable def lower (N i : ℕ) : ℂ := match i with
  | 0 => 0
  | i + 1 => ladder N i

theorem jm_int (hs : Space) (j : ℕ) (h : j < hs.dim) : jmCoeff hs (.int j) true = .ok (lower hs.twiceSpin j) := by
  unfold Space.dim at h
  have h1 : (0 : ℤ) ≤ (j : ℤ) ∧ (j : ℤ) < (hs.dim : ℕ) := by unfold Space.dim; omega
  unfold jmCoeff
  simp only [if_true]
  rw [if_pos h1]
  congr 1
  cases j with
  | zero =>
    unfold lower
    have : hs.s * (hs.s + 1) - (((0 : ℕ) : ℤ) - hs.s) * (((0 : ℕ) : ℤ) - hs.s - 1) = 0 := by push_cast; ring
    rw [this]
    simp [root]
  | succ j =>
    show _ = ladder _ j
    unfold ladder
    rw [← root_ofReal]
    · congr 1
      unfold Space.s
      push_cast; ring
    · apply mul_nonneg
      · rw [sub_nonneg]; exact_mod_cast (by omega)
      · positivity

theorem jz_int (hs : Space) (j : ℕ) (h : j < hs.dim) : jzCoeff hs (.int j) true = .ok (some ((j : ℂ) - (hs.twiceSpin : ℂ) / 2)) := by
  unfold Space.dim at h
  have h1 : (0 : ℤ) ≤ (j : ℤ) ∧ (j : ℤ) < (hs.dim : ℕ) := by unfold Space.dim; omega
  unfold jzCoeff
  simp only [if_true]
  rw [if_pos h1]
  simp [Space.s]

/-- C38: on basis states given by index, the coefficient of `J+` is that of the spin matrix, and is zero exactly for the highest state. -/
theorem C38_top (hs : Space) (j : ℕ) (h : j < hs.dim) :
    ∃ c, jpCoeff hs (.int j) true = .ok c ∧ c * c = hs.s * (hs.s + 1) - (j - hs.s) * (j - hs.s + 1) ∧ (c = 0 ↔ j + 1 = hs.dim) := by
  refine ⟨_, jp_int hs j h, ?_, ?_⟩
  · unfold Space.dim at h
    rw [ladder_sq _ _ (by omega)]
    unfold Space.s
    ring
  · unfold Space.dim at *
    constructor
    · intro e
      by_contra hne
      exact ladder_ne _ j (by omega) e
    · intro e
      have : j = hs.twiceSpin := by omega
      subst this
      exact ladder_top _

/-- C38: the coefficient of `J-` is zero exactly for the lowest state. -/
theorem C38_bottom (hs : Space) (j : ℕ) (h : j < hs.dim) :
    ∃ c, jmCoeff hs (.int j) true = .ok c ∧ c * c = hs.s * (hs.s + 1) - (j - hs.s) * (j - hs.s - 1) ∧ (c = 0 ↔ j = 0) := by
  refine ⟨_, jm_int hs j h, ?_, ?_⟩
  · unfold Space.dim at h
    cases j with
    | zero => unfold lower; push_cast; ring
    | succ j =>
      show ladder _ _ * ladder _ _ = _
      rw [ladder_sq _ _ (by omega)]
      unfold Space.s
      push_cast; ring
  · cases j with
    | zero => simp [lower]
    | succ j =>
      unfold Space.dim at h
      simp only [lower, Nat.succ_ne_zero, iff_false]
      exact ladder_ne _ j (by omega)

/-- values of the operators: the spin matrices -/
noncomputable def valOp (N : ℕ) : Op → Matrix (Fin (N + 1)) (Fin (N + 1)) ℂ
  | .jplus => specP N
  | .jminus => specM N
  | .jz => specZ N
  | .sigma a b => fun i j => if i.1 = a ∧ j.1 = b then 1 else 0

/-- value of an operator expression -/
noncomputable def valOX (N : ℕ) : OX → Matrix (Fin (N + 1)) (Fin (N + 1)) ℂ
  | .zero => 0
  | .op o => valOp N o
  | .smul c e => c • valOX N e
  | .mul a b => valOX N a * valOX N b
  | .add a b => valOX N a + valOX N b

/-- projectors on levels that exist -/
def Op.fits (N : ℕ) : Op → Prop
  | .sigma a b => a < N + 1 ∧ b < N + 1
  | _ => True

theorem raise_val (hs : Space) (j k : ℕ) (dj dk : ℤ) (i l : Fin (hs.twiceSpin + 1)) : valOX hs.twiceSpin (raiseJK hs j k dj dk) i l
      = if (i.1 : ℤ) = j + dj ∧ (l.1 : ℤ) = k + dk then 1 else 0 := by
  unfold raiseJK
  split
  · rename_i hc
    show (if i.1 = ((j : ℤ) + dj).toNat ∧ l.1 = ((k : ℤ) + dk).toNat then (1 : ℂ) else 0) = _
    congr 1
    apply propext
    omega
  · rename_i hc
    rw [if_neg]
    · rfl
    · unfold Space.dim at hc
      have := i.2; have := l.2
      omega

/-- C38: every rule for the product of two operators on a spin space is an identity of spin matrices, for every spin and every pair of levels. -/
theorem C38_products (hs : Space) {x y : Op} {r : Except Err OX} (hx : x.fits hs.twiceSpin) (hy : y.fits hs.twiceSpin)
    (h : prodRule hs x y = some r) : ∃ e, r = .ok e ∧ valOX hs.twiceSpin e = valOp hs.twiceSpin x * valOp hs.twiceSpin y := by
  obtain ⟨s1, s2, s3, -⟩ := C38_su2 hs.twiceSpin
  cases x <;> cases y <;> simp only [prodRule] at h
  all_goals first | (cases h; done) | injection h with h
  all_goals subst h
  · -- jplus, sigma
    rename_i a b
    rw [jp_int hs a hy.1]
    refine ⟨_, rfl, ?_⟩
    ext i l
    rw [mul_single_right _ _ i l ⟨a, hy.1⟩ (fun m hm => if_neg (fun e => hm (Fin.ext e.1)))]
    show ladder hs.twiceSpin a * (valOX hs.twiceSpin (raiseJK hs a b 1 0)) i l
      = (if i.1 = a + 1 then ladder hs.twiceSpin a else 0) * (if a = a ∧ l.1 = b then 1 else 0)
    rw [raise_val]
    by_cases h1 : i.1 = a + 1 <;> by_cases h2 : l.1 = b
    · simp [h1, h2]
    · simp [h2]
    · simp [h1]; omega
    · simp [h2]
  · -- jminus, jplus
    refine ⟨_, rfl, ?_⟩
    show (-2 : ℂ) • specZ _ + specP _ * specM _ = specM _ * specP _
    rw [neg_smul, ← s3]; abel
  · -- jminus, jz
    refine ⟨_, rfl, ?_⟩
    show specZ _ * specM _ + specM _ = specM _ * specZ _
    have e : specM hs.twiceSpin = specM hs.twiceSpin * specZ hs.twiceSpin - specZ hs.twiceSpin * specM hs.twiceSpin := by
      rw [← neg_sub, s2, neg_neg]
    nth_rewrite 2 [e]
    abel
  · -- jminus, sigma
    rename_i a b
    rw [jm_int hs a hy.1]
    refine ⟨_, rfl, ?_⟩
    ext i l
    rw [mul_single_right _ _ i l ⟨a, hy.1⟩ (fun m hm => if_neg (fun e => hm (Fin.ext e.1)))]
    show lower hs.twiceSpin a * (valOX hs.twiceSpin (raiseJK hs a b (-1) 0)) i l
      = (if a = i.1 + 1 then ladder hs.twiceSpin i else 0) * (if a = a ∧ l.1 = b then 1 else 0)
    rw [raise_val]
    by_cases h1 : a = i.1 + 1 <;> by_cases h2 : l.1 = b
    · subst h1; simp [h2, lower]
    · simp [h2]
    · simp [h1]; intro h; omega
    · simp [h2]
  · -- jz, jplus
    refine ⟨_, rfl, ?_⟩
    show specP _ * specZ _ + specP _ = specZ _ * specP _
    nth_rewrite 2 [← s1]
    abel
  · -- jz, sigma
    rename_i a b
    rw [jz_int hs a hy.1]
    refine ⟨_, rfl, ?_⟩
    ext i l
    show _ * (if i.1 = a ∧ l.1 = b then 1 else 0) = (specZ hs.twiceSpin * valOp hs.twiceSpin (.sigma a b)) i l
    rw [z_mul]
    show _ = _ * (if i.1 = a ∧ l.1 = b then 1 else 0)
    by_cases h1 : i.1 = a
    · simp [h1]
    · simp [h1]
  · -- sigma, jplus
    rename_i a b
    rw [jm_int hs b hx.2]
    refine ⟨_, rfl, ?_⟩
    ext i l
    rw [mul_single_left _ _ i l ⟨b, hx.2⟩ (fun m hm => if_neg (fun e => hm (Fin.ext e.2)))]
    show lower hs.twiceSpin b * (valOX hs.twiceSpin (raiseJK hs a b 0 (-1))) i l
      = (if i.1 = a ∧ b = b then 1 else 0) * (if b = l.1 + 1 then ladder hs.twiceSpin l else 0)
    rw [raise_val]
    by_cases h1 : b = l.1 + 1 <;> by_cases h2 : i.1 = a
    · subst h1; simp [h2, lower]
    · simp [h2]
    · simp [h1]; intro _ h; omega
    · simp [h2]
  · -- sigma, jminus
    rename_i a b
    rw [jp_int hs b hx.2]
    refine ⟨_, rfl, ?_⟩
    ext i l
    rw [mul_single_left _ _ i l ⟨b, hx.2⟩ (fun m hm => if_neg (fun e => hm (Fin.ext e.2)))]
    show ladder hs.twiceSpin b * (valOX hs.twiceSpin (raiseJK hs a b 0 1)) i l
      = (if i.1 = a ∧ b = b then 1 else 0) * (if l.1 = b + 1 then ladder hs.twiceSpin b else 0)
    rw [raise_val]
    by_cases h1 : l.1 = b + 1 <;> by_cases h2 : i.1 = a
    · simp [h1, h2]
    · simp [h2]
    · simp [h1]; intro _ h; omega
    · simp [h2]
  · -- sigma, jz
    rename_i a b
    rw [jz_int hs b hx.2]
    refine ⟨_, rfl, ?_⟩
    ext i l
    show _ * (if i.1 = a ∧ l.1 = b then 1 else 0) = (valOp hs.twiceSpin (.sigma a b) * specZ hs.twiceSpin) i l
    rw [mul_z]
    show _ = (if i.1 = a ∧ l.1 = b then 1 else 0) * _
    by_cases h1 : l.1 = b
    · simp [h1]
    · simp [h1]
  · -- sigma, sigma
    rename_i a b a' b'
    refine ⟨_, rfl, ?_⟩
    ext i l
    rw [mul_single_left _ _ i l ⟨b, hx.2⟩ (fun m hm => if_neg (fun e => hm (Fin.ext e.2)))]
    show (valOX hs.twiceSpin (if b = a' then .op (.sigma a b') else .zero)) i l = (if i.1 = a ∧ b = b then 1 else 0) * (if b = a' ∧ l.1 = b' then 1 else 0)
    split
    · rename_i h; subst h
      show (if i.1 = a ∧ l.1 = b' then (1 : ℂ) else 0) = _
      by_cases h1 : i.1 = a <;> by_cases h2 : l.1 = b' <;> simp [h1, h2]
    · rename_i h
      simp [valOX, h]

/-- value of a ket: the vector of its coefficients -/
noncomputable def valKX (N : ℕ) : KX → Fin (N + 1) → ℂ
  | .zero => fun _ => 0
  | .smul c n => fun i => if i.1 = n then c else 0

theorem next_val (hs : Space) (n : ℕ) (d : ℤ) (c : ℂ) (i : Fin (hs.twiceSpin + 1)) :
    valKX hs.twiceSpin (nextKet hs n d c) i = if (i.1 : ℤ) = n + d then c else 0 := by
  unfold nextKet
  split
  · show (if i.1 = ((n : ℤ) + d).toNat then c else 0) = _
    congr 1
    apply propext
    omega
  · rename_i hc
    rw [if_neg]
    · rfl
    · unfold Space.dim at hc
      have := i.2
      omega

/-- C38: an operator applied to a basis state gives the corresponding column of its spin matrix. -/
theorem C38_kets (hs : Space) (x : Op) (n : ℕ) (hn : n < hs.twiceSpin + 1) :
    ∃ e, ketRule hs x n = .ok e ∧ valKX hs.twiceSpin e = fun i => valOp hs.twiceSpin x i ⟨n, hn⟩ := by
  cases x with
  | jplus =>
    refine ⟨_, by rw [ketRule, jp_int hs n hn]; rfl, ?_⟩
    funext i
    rw [next_val]
    show _ = if i.1 = n + 1 then ladder hs.twiceSpin n else 0
    congr 1
    apply propext; omega
  | jminus =>
    refine ⟨_, by rw [ketRule, jm_int hs n hn]; rfl, ?_⟩
    funext i
    rw [next_val]
    show _ = if n = i.1 + 1 then ladder hs.twiceSpin i else 0
    by_cases h : n = i.1 + 1
    · subst h; simp [lower]
    · rw [if_neg h, if_neg (by omega)]
  | jz =>
    refine ⟨_, by rw [ketRule, jz_int hs n hn]; rfl, ?_⟩
    funext i
    show (if i.1 = n then (n : ℂ) - hs.twiceSpin / 2 else 0) = if i = ⟨n, hn⟩ then (i.1 : ℂ) - hs.twiceSpin / 2 else 0
    by_cases h : i.1 = n
    · subst h; simp
    · rw [if_neg h, if_neg (fun e => h (congrArg Fin.val e))]
  | sigma a b =>
    refine ⟨_, rfl, ?_⟩
    funext i
    show valKX hs.twiceSpin (if b = n then .smul 1 a else .zero) i = if i.1 = a ∧ n = b then 1 else 0
    split
    · rename_i h; subst h
      show (if i.1 = a then (1 : ℂ) else 0) = _
      simp
    · rename_i h
      rw [if_neg (fun e => h e.2.symm)]; rfl

/-- C38: the result of applying an operator to a basis state is zero or a multiple of a basis state of the space: its index is one of the `2 s + 1` levels
(for `LocalSigma`, if its own labels are). -/
theorem C38_kets_in_range (hs : Space) (x : Op) (n : ℕ) (hx : ∀ a b, x = .sigma a b → a < hs.twiceSpin + 1) (c : ℂ) (k : ℕ) (hn : n < hs.twiceSpin + 1)
    (h : ketRule hs x n = .ok (.smul c k)) : k < hs.twiceSpin + 1 := by
  have hnext : ∀ (d : ℤ) (c' : ℂ), nextKet hs n d c' = .smul c k → k < hs.twiceSpin + 1 := by
    intro d c' h
    unfold nextKet at h
    split at h
    · rename_i hr
      injection h with _ h
      unfold Space.dim at hr
      omega
    · cases h
  cases x with
  | jplus =>
    rw [ketRule, jp_int hs n hn] at h
    simp only [Except.map] at h
    injection h with h
    exact hnext _ _ h
  | jminus =>
    rw [ketRule, jm_int hs n hn] at h
    simp only [Except.map] at h
    injection h with h
    exact hnext _ _ h
  | jz =>
    rw [ketRule, jz_int hs n hn] at h
    simp only [Except.bind] at h
    injection h with h
    injection h with _ h
    omega
  | sigma a b =>
    simp only [ketRule] at h
    injection h with h
    split at h
    · injection h with _ h
      have := hx a b rfl
      omega
    · cases h

/-- C38: `SpinSpace` accepts exactly the spins `1/2, 1, 3/2, ...` (`z = 2 s` is an integer), and a basis with `2 s + 1` labels that is not one of the two
forbidden ones; the space has dimension `2 s + 1`. -/
theorem C38_space (z : ℤ) (basis : Option (List Lbl)) (hs : Space) : mkSpace z basis = .ok hs ↔
    1 ≤ z ∧ (hs.twiceSpin : ℤ) = z ∧ match basis with
      | none => hs.basis = (List.range (hs.twiceSpin + 1)).map (fun n : ℕ => render (2 * n - hs.twiceSpin))
      | some b => b ≠ [.custom "up", .custom "down"] ∧ b ≠ [.custom "+", .custom "-"] ∧ (b.length : ℤ) = z + 1 ∧ hs.basis = b := by
  unfold mkSpace
  by_cases hz : z + 1 ≤ 1
  · rw [if_pos hz]
    constructor
    · intro h; cases h
    · rintro ⟨h, -⟩; omega
  · rw [if_neg hz]
    obtain ⟨n, rfl⟩ : ∃ n : ℕ, z = n := ⟨z.toNat, by omega⟩
    obtain ⟨k, bs⟩ := hs
    cases basis with
    | none =>
      have e : defaultBasis n = (List.range (n + 1)).map (fun i : ℕ => render (2 * i - n)) := by
        unfold defaultBasis
        exact List.map_congr_left (fun i _ => by congr 1; omega)
      simp only [Int.toNat_natCast, Except.ok.injEq, Space.mk.injEq, e]
      constructor
      · rintro ⟨rfl, rfl⟩; exact ⟨by omega, rfl, rfl⟩
      · rintro ⟨h1, h2, h3⟩
        have : k = n := by exact_mod_cast h2
        subst this
        exact ⟨rfl, h3.symm⟩
    | some b =>
      simp only [Int.toNat_natCast]
      split
      · rename_i h
        constructor
        · intro h'; cases h'
        · rintro ⟨-, -, h1, h2, -⟩; rcases h with h | h
          · exact absurd h h1
          · exact absurd h h2
      · rename_i h
        rw [not_or] at h
        split
        · rename_i hl
          constructor
          · intro h'; cases h'
          · rintro ⟨-, -, -, -, h3, -⟩; omega
        · rename_i hl
          simp only [Except.ok.injEq, Space.mk.injEq]
          constructor
          · rintro ⟨rfl, rfl⟩; exact ⟨by omega, rfl, h.1, h.2, by omega, rfl⟩
          · rintro ⟨-, h1, -, -, -, h2⟩; exact ⟨by exact_mod_cast h1.symm, h2.symm⟩

/-- C38: `adjoint` of the operators denotes the conjugate transpose. -/
theorem C38_adjoint (N : ℕ) (x : Op) : valOp N (adjointOp x) = (valOp N x).conjTranspose := by
  obtain ⟨-, -, -, s4, s5, -⟩ := C38_su2 N
  cases x with
  | jplus => exact s4.symm
  | jminus => show specP N = (specM N).conjTranspose; rw [← s4, Matrix.conjTranspose_conjTranspose]
  | jz => exact s5.symm
  | sigma a b =>
    ext i j
    rw [Matrix.conjTranspose_apply]
    show (if i.1 = b ∧ j.1 = a then (1 : ℂ) else 0) = star (if j.1 = a ∧ i.1 = b then (1 : ℂ) else 0)
    by_cases h1 : i.1 = b <;> by_cases h2 : j.1 = a <;> simp [h1, h2]

/-! ## Labels -/

theorem render_inj {a b : ℤ} (h : render a = render b) : a = b := by
  unfold render at h
  split at h <;> split at h
  · injection h; omega
  · cases h
  · cases h
  · injection h

theorem idxOf_default (N n : ℕ) (h : n < N + 1) : indexOf (render (-(N : ℤ) + 2 * n)) (defaultBasis N) = .ok n := by
  have hnd : (defaultBasis N).Nodup := by
    unfold defaultBasis
    refine (List.nodup_range).map ?_
    intro a b hab
    have := render_inj hab
    omega
  have hg : (defaultBasis N)[n]? = some (render (-(N : ℤ) + 2 * n)) := by
    unfold defaultBasis
    simp [h]
  have hlen : n < (defaultBasis N).length := by unfold defaultBasis; simpa using h
  have he : (defaultBasis N)[n] = render (-(N : ℤ) + 2 * n) := by
    rw [List.getElem?_eq_getElem hlen] at hg; exact Option.some.inj hg
  unfold indexOf
  rw [if_pos (he ▸ List.getElem_mem hlen), ← he, hnd.idxOf_getElem]

/-- the label is in the default basis exactly when it is the rendered quantum number of a level -/
theorem mem_default (N : ℕ) (l : Lbl) : l ∈ defaultBasis N ↔ ∃ n : ℕ, n < N + 1 ∧ l = render (-(N : ℤ) + 2 * n) := by
  unfold defaultBasis
  simp only [List.mem_map, List.mem_range]
  constructor
  · rintro ⟨n, h, e⟩; exact ⟨n, h, e.symm⟩
  · rintro ⟨n, h, e⟩; exact ⟨n, h, e.symm⟩

/-- C38: `SpinBasisKet(m)` / `SpinBasisKet(numer, 2)` on a spin space with default labels is the basis state number `n` exactly when the quantum
number is `n - s`; all other arguments are rejected. -/
theorem C38_spin_basis_ket (N : ℕ) (args : List ℤ) (n : ℕ) :
    spinBasisKet ⟨N, defaultBasis N⟩ args = .ok n ↔
      n < N + 1 ∧ ((N % 2 = 0 ∧ ∃ m : ℤ, args = [m] ∧ 2 * m = 2 * n - N) ∨ (N % 2 = 1 ∧ ∃ m : ℤ, args = [m, 2] ∧ m = 2 * n - N)) := by
  constructor
  · intro h
    unfold spinBasisKet at h
    simp only at h
    split at h
    · rename_i he
      split at h
      · rename_i numer
        split at h
        · cases h
        · rename_i hr
          by_cases hm : Lbl.int numer ∈ defaultBasis N
          · obtain ⟨k, hk, e⟩ := (mem_default N _).mp hm
            rw [e, idxOf_default N k hk] at h
            injection h with h; subst h
            refine ⟨hk, Or.inl ⟨he, numer, rfl, ?_⟩⟩
            unfold render at e
            split at e
            · injection e; omega
            · cases e
          · unfold indexOf at h
            rw [if_neg hm] at h; cases h
      · cases h
    · rename_i he
      split at h
      · rename_i numer denom
        split at h
        · cases h
        · rename_i hd
          split at h
          · cases h
          · by_cases hm : Lbl.half numer ∈ defaultBasis N
            · obtain ⟨k, hk, e⟩ := (mem_default N _).mp hm
              rw [e, idxOf_default N k hk] at h
              injection h with h; subst h
              refine ⟨hk, Or.inr ⟨by omega, numer, by rw [not_not.mp hd], ?_⟩⟩
              unfold render at e
              split at e
              · cases e
              · injection e; omega
            · unfold indexOf at h
              rw [if_neg hm] at h; cases h
      · cases h
  · rintro ⟨hn, ⟨he, m, rfl, hm⟩ | ⟨he, m, rfl, hm⟩⟩
    · unfold spinBasisKet
      simp only
      rw [if_pos he, if_neg (by omega)]
      have : Lbl.int m = render (-(N : ℤ) + 2 * n) := by
        unfold render
        rw [if_pos (by omega)]
        congr 1; omega
      rw [this, idxOf_default N n hn]
    · unfold spinBasisKet
      simp only
      rw [if_neg (by omega), if_neg (by simp), if_neg (by omega)]
      have : Lbl.half m = render (-(N : ℤ) + 2 * n) := by
        unfold render
        rw [if_neg (by omega)]
        congr 1; omega
      rw [this, idxOf_default N n hn]

/-- C38: `Jpjmcoeff` on the label of a basis state agrees with the index of that state. -/
theorem C38_jp_label (hs : Space) (l : Lbl) (hl : l ∈ hs.basis) (hlen : hs.basis.length = hs.dim) (shift : Bool) :
    jpCoeff hs (.str l) shift = jpCoeff hs (.int (hs.basis.idxOf l)) true := by
  have h1 : hs.basis.idxOf l < hs.dim := hlen ▸ List.idxOf_lt_length_iff.mpr hl
  unfold jpCoeff indexOf
  simp only [if_pos hl, if_true]
  rw [if_pos (by omega)]
  simp [Except.map]

/-! ## What does not hold -/

/-- C38 refuted for labels: `Jzjmcoeff` and `Jmjmcoeff` raise `AttributeError` for every label, and `Jzjmcoeff` with `shift=False` returns `None`
for every integer, although both are documented as accepted. -/
theorem C38_refuted_labels (hs : Space) (l : Lbl) (shift : Bool) (z : ℤ) :
    jzCoeff hs (.str l) shift = .error .attribute ∧ jmCoeff hs (.str l) shift = .error .attribute ∧ jzCoeff hs (.int z) false = .ok none :=
  ⟨rfl, rfl, rfl⟩

/-- C38 refuted for symbolic labels: `Jz` applied to a basis state labelled with the symbolic quantum number `m` gives the coefficient `m + s`, which is wrong
for every spin and every value of `m`. -/
theorem C38_refuted_symbolic (hs : Space) (hpos : 0 < hs.twiceSpin) (m : ℂ) : ∃ c, jzSymbolic hs m = .ok (some c) ∧ c ≠ m := by
  refine ⟨_, rfl, fun h => ?_⟩
  have : hs.s = 0 := by linear_combination h
  unfold Space.s at this
  have h2 : (hs.twiceSpin : ℂ) ≠ 0 := by exact_mod_cast hpos.ne'
  exact div_ne_zero h2 two_ne_zero this

/-- C38 refuted for custom labels: rebuilding a spin space (as by `substitute` or `rebuild` of an expression acting on it) loses its labels. -/
theorem C38_refuted_custom_basis : ∃ hs hs', mkSpace 1 (some [.custom "down", .custom "up"]) = .ok hs ∧ hs.rebuild = .ok hs' ∧ hs' ≠ hs :=
  ⟨⟨1, [.custom "down", .custom "up"]⟩, ⟨1, [.half (-1), .half 1]⟩, by decide, by decide, by decide⟩

/-- C38: with the default labels, the rebuilt space is the same. -/
theorem C38_rebuild (z : ℤ) (hs : Space) (h : mkSpace z none = .ok hs) : hs.rebuild = .ok hs := by
  unfold mkSpace at h
  split at h
  · cases h
  · injection h with h; subst h
    unfold Space.rebuild mkSpace
    simp only
    rw [if_neg (by omega)]
    have : ((z.toNat : ℤ)).toNat = z.toNat := Int.toNat_natCast _
    rw [this]

/-! ## Instances -/

example : mkSpace 3 none = .ok ⟨3, [.half (-3), .half (-1), .half 1, .half 3]⟩ := by decide
example : mkSpace 2 none = .ok ⟨2, [.int (-1), .int 0, .int 1]⟩ := by decide
example : spinBasisKet ⟨3, defaultBasis 3⟩ [1, 2] = .ok 2 := by decide
example : spinBasisKet ⟨3, defaultBasis 3⟩ [2, 2] = .error .value := by decide
example : ∃ e, ketRule ⟨3, defaultBasis 3⟩ .jplus 1 = .ok e ∧ valKX 3 e = fun i => specP 3 i 1 := C38_kets ⟨3, defaultBasis 3⟩ .jplus 1 (by decide)
example : ∃ r, prodRule ⟨3, defaultBasis 3⟩ .jplus (.sigma 3 0) = some r := ⟨_, rfl⟩

end QNET.Spin
