import Verif.Perm.Model
import Verif.Indexed.Sem
import Mathlib.Analysis.SpecialFunctions.Pow.Complex
import Mathlib.Analysis.SpecialFunctions.Complex.Arg
import Mathlib.Tactic.NormNum
import Mathlib.Tactic.Ring
import Mathlib.Tactic.FieldSimp
import Mathlib.Tactic.Linarith

/-!
# C87: powers with fractional exponents, square roots, complex conjugation of scalars

Model of `ScalarPower`, `sqrt`, `conjugate`, `real`, `imag` (`src/qnet/algebra/core/scalar_algebra.py`). Exponents are rational numbers.
-/

namespace QNET.Scalar.Root

open QNET.Perm (Res Err)

/-- Scalars as in `Verif.Scalar.Model`, but with rational exponents. -/
inductive RX (K : Type) where
  | zero
  | one
  | val (k : K)
  | sym (a : ℕ)
  | plus (l : List (RX K))
  | times (l : List (RX K))
  | pow (b : RX K) (e : ℚ)

/-- Python's and SymPy's numbers: what they stand for, `k**q` (`none`: an exception), and the conjugate -/
structure Nums (K : Type) where
  /-- the complex number -/
  num : K → ℂ
  /-- `k**q` -/
  pow : K → ℚ → Option K
  /-- `k.conjugate()` -/
  conj : K → K
  /-- the numbers 1/2 and i/2 -/
  half : K
  ihalf : K
  mone : K

/-- Python and SymPy compute with complex numbers, and powers are principal values -/
structure Nums.Ok {K : Type} (N : Nums K) : Prop where
  pow : ∀ k q r, N.pow k q = some r → N.num r = N.num k ^ (q : ℂ)
  conj : ∀ k, N.num (N.conj k) = (starRingEnd ℂ) (N.num k)
  half : N.num N.half = 1 / 2
  ihalf : N.num N.ihalf = Complex.I / 2
  mone : N.num N.mone = -1

variable {K : Type} (N : Nums K)

open Classical in
/-- `ScalarValue.create(k)`, lines 211-232 -/
noncomputable def create (k : K) : RX K := if N.num k = 0 then .zero else if N.num k = 1 then .one else .val k

/-- `ScalarPower.create(b, e)`, rules R001-R004 (`_rules.py` lines 74-87): `(x**y)**z -> x**(y*z)`. -/
noncomputable def powCreate : RX K → ℚ → Res (RX K)
  | .val k, e =>
    match N.pow k e with
    | some r => .ok (create N r)
    | none => .error .other
  | .pow x y, z =>
    if z = 0 then .ok .one
    else if z = 1 then .ok (.pow x y)
    else
      match x with
      | .zero => if y * z < 0 then .error .other else if y * z = 0 then .ok .one else .ok .zero
      | .one => .ok .one
      | x => powCreate x (y * z)
  | x, e => if e = 0 then .ok .one else if e = 1 then .ok x else .ok (.pow x e)

/-- `x**e`: ScalarValue lines 409-415, Zero lines 612-618, One lines 784-790, expressions line 489-490, ScalarPower lines 1064-1065:
`ScalarPower.create(self.base, self.exp * other)` -/
noncomputable def powS (x : RX K) (e : ℚ) : Res (RX K) :=
  match x with
  | .zero => if e < 0 then .error .other else if e = 0 then .ok .one else .ok .zero
  | .one => .ok .one
  | .pow b e0 => powCreate N b (e0 * e)
  | x => powCreate N x e

/-- `sqrt(x)` for a `Scalar`, lines 1150-1206: `x**(1/2)` -/
noncomputable def sqrt (x : RX K) : Res (RX K) :=
  match x with
  | .zero => .ok .zero
  | .one => .ok .one
  | x => powS N x (1 / 2)

mutual
/-- `x.conjugate()`: ScalarValue lines 310-311, Zero, One (themselves), ScalarPlus lines 857-860, ScalarTimes lines 907-910, ScalarPower lines
1067-1069: `conj(b)**conj(e)`; a symbolic scalar `a` has the conjugate `cs a` (e.g. `BraKet` with exchanged states). Simplification: the
automatic simplification of the new sum, product or power is left out (it does not change the value: C35). -/
def conj (cs : ℕ → ℕ) : RX K → RX K
  | .zero => .zero
  | .one => .one
  | .val k => .val (N.conj k)
  | .sym a => .sym (cs a)
  | .plus l => .plus (conjs cs l)
  | .times l => .times (conjs cs l).reverse
  | .pow b e => .pow (conj cs b) e
/-- conjugates of a list -/
def conjs (cs : ℕ → ℕ) : List (RX K) → List (RX K)
  | [] => []
  | x :: l => conj cs x :: conjs cs l
end

/-- `x.real`, lines 50-53: `(conj(x) + x) / 2` -/
def real (cs : ℕ → ℕ) (x : RX K) : RX K := .times [.val N.half, .plus [conj N cs x, x]]

/-- `x.imag`, lines 55-58: `(conj(x) - x) * (I / 2)` -/
def imag (cs : ℕ → ℕ) (x : RX K) : RX K := .times [.val N.ihalf, .plus [conj N cs x, .times [.val N.mone, x]]]

/-! ### specification -/

mutual
/-- the value of a scalar; powers are principal values -/
noncomputable def rval (ρ : ℕ → ℂ) : RX K → ℂ
  | .zero => 0
  | .one => 1
  | .val k => N.num k
  | .sym a => ρ a
  | .plus l => (rvals ρ l).sum
  | .times l => (rvals ρ l).prod
  | .pow b e => rval ρ b ^ (e : ℂ)
/-- values of a list -/
noncomputable def rvals (ρ : ℕ → ℂ) : List (RX K) → List ℂ
  | [] => []
  | x :: l => rval ρ x :: rvals ρ l
end

mutual
/-- no power of a negative number with an exponent that is not whole -/
def OffCut (ρ : ℕ → ℂ) : RX K → Prop
  | .plus l => OffCuts ρ l
  | .times l => OffCuts ρ l
  | .pow b e => OffCut ρ b ∧ ((rval N ρ b).arg ≠ Real.pi ∨ ∃ n : ℤ, e = n)
  | _ => True
/-- for all elements -/
def OffCuts (ρ : ℕ → ℂ) : List (RX K) → Prop
  | [] => True
  | x :: l => OffCut ρ x ∧ OffCuts ρ l
end

/-! ### proofs -/

variable {N} {ρ : ℕ → ℂ}

theorem create_val (k : K) : rval N ρ (create N k) = N.num k := by
  unfold create
  split
  · rename_i h; simp [rval, h]
  · split
    · rename_i h; simp [rval, h]
    · simp [rval]

/-- the only law of powers that is used: `(b^y)^z = b^(y z)` for whole `z` -/
theorem pow_int (b : ℂ) (y : ℚ) (n : ℤ) : (b ^ (y : ℂ)) ^ (n : ℂ) = b ^ ((y * n : ℚ) : ℂ) := by
  rw [Rat.cast_mul, Rat.cast_intCast, Complex.cpow_mul_int, Complex.cpow_intCast]

theorem zero_pow_val {e : ℚ} {r : RX K} (h : (if e < 0 then (.error .other : Res (RX K)) else if e = 0 then .ok .one else .ok .zero) = .ok r) :
    rval N ρ r = (0 : ℂ) ^ (e : ℂ) := by
  split at h
  · cases h
  · split at h
    · rename_i h0; cases h; simp [rval, h0]
    · rename_i h0; cases h
      rw [Complex.zero_cpow (by exact_mod_cast h0), rval]

theorem gen_val {x : RX K} {e : ℚ} {r : RX K} (h : (if e = 0 then (.ok .one : Res (RX K)) else if e = 1 then .ok x else .ok (.pow x e)) = .ok r) :
    rval N ρ r = rval N ρ x ^ (e : ℂ) := by
  split at h
  · rename_i h0; cases h; simp [rval, h0]
  · split at h
    · rename_i h1; cases h; simp [h1]
    · cases h; simp [rval]

/-- the exponents that lead to a law of powers: the base is not a power, or the exponent is whole -/
def Lawful : RX K → ℚ → Prop
  | .pow _ _, e => ∃ n : ℤ, e = n
  | _, _ => True

/-- nested powers do not occur: `ScalarPower.create` never makes them -/
def Flat : RX K → Prop
  | .pow (.pow _ _) _ => False
  | _ => True

theorem powCreate_val (hN : N.Ok) {x r : RX K} {e : ℚ} (hf : Flat x) (hl : Lawful x e) (h : powCreate N x e = .ok r) :
    rval N ρ r = rval N ρ x ^ (e : ℂ) := by
  cases x with
  | val k =>
    unfold powCreate at h
    split at h
    · rename_i h1; cases h; rw [create_val, hN.pow _ _ _ h1, rval]
    · cases h
  | pow x y =>
    obtain ⟨n, rfl⟩ := hl
    unfold powCreate at h
    split at h
    · rename_i h0; cases h; simp [rval, h0]
    · split at h
      · rename_i h1; cases h; simp [h1]
      · rw [rval, show ((n : ℚ) : ℂ) = (n : ℂ) by norm_cast, pow_int]
        split at h
        · exact zero_pow_val h
        · cases h; simp [rval]
        · cases x with
          | pow b e => exact hf.elim
          | val k =>
            unfold powCreate at h
            split at h
            · rename_i h1; cases h; rw [create_val, hN.pow _ _ _ h1, rval]
            · cases h
          | zero => rename_i h0 _; exact absurd rfl h0
          | one => rename_i h0; exact absurd rfl h0
          | sym a => exact gen_val (by simpa only [powCreate] using h)
          | plus l => exact gen_val (by simpa only [powCreate] using h)
          | times l => exact gen_val (by simpa only [powCreate] using h)
  | zero => exact gen_val (by simpa only [powCreate] using h)
  | one => exact gen_val (by simpa only [powCreate] using h)
  | sym a => exact gen_val (by simpa only [powCreate] using h)
  | plus l => exact gen_val (by simpa only [powCreate] using h)
  | times l => exact gen_val (by simpa only [powCreate] using h)

theorem powS_val (hN : N.Ok) {x r : RX K} {e : ℚ} (hf : Flat x) (hl : Lawful x e) (h : powS N x e = .ok r) :
    rval N ρ r = rval N ρ x ^ (e : ℂ) := by
  cases x with
  | zero => exact zero_pow_val h
  | one => simp only [powS] at h; cases h; simp [rval]
  | pow b e0 =>
    obtain ⟨n, rfl⟩ := hl
    simp only [powS] at h
    rw [rval, show ((n : ℚ) : ℂ) = (n : ℂ) by norm_cast, pow_int]
    refine powCreate_val hN ?_ ?_ h
    · cases b <;> first | trivial | exact hf.elim
    · cases b <;> first | trivial | exact hf.elim
  | val k => exact powCreate_val hN trivial trivial h
  | sym a => exact powCreate_val hN trivial trivial h
  | plus l => exact powCreate_val hN trivial trivial h
  | times l => exact powCreate_val hN trivial trivial h

/-- C87 (partial: the scalar is not itself a power, or the exponent is whole): `x**e` denotes the principal value of the power. -/
theorem C87_pow_partial (hN : N.Ok) {x r : RX K} {e : ℚ} (hf : Flat x) (hl : (∀ b q, x ≠ .pow b q) ∨ ∃ n : ℤ, e = n) (h : powS N x e = .ok r) :
    rval N ρ r = rval N ρ x ^ (e : ℂ) := by
  refine powS_val hN hf ?_ h
  rcases hl with hl | hl
  · cases x <;> first | trivial | exact absurd rfl (hl _ _)
  · cases x <;> first | trivial | exact hl

theorem create_flat (k : K) : Flat (create N k) := by unfold create; split; trivial; split <;> trivial

theorem powCreate_flat {x r : RX K} {e : ℚ} (hx : ∀ b q, x ≠ .pow b q) (h : powCreate N x e = .ok r) : Flat r := by
  have gen : (if e = 0 then (.ok .one : Res (RX K)) else if e = 1 then .ok x else .ok (.pow x e)) = .ok r → Flat r := by
    intro h
    split at h
    · cases h; trivial
    · split at h
      · cases h; cases x <;> first | trivial | exact absurd rfl (hx _ _)
      · cases h; cases x <;> first | trivial | exact absurd rfl (hx _ _)
  cases x with
  | val k =>
    unfold powCreate at h
    split at h
    · cases h; exact create_flat _
    · cases h
  | pow b q => exact absurd rfl (hx b q)
  | zero => exact gen (by simpa only [powCreate] using h)
  | one => exact gen (by simpa only [powCreate] using h)
  | sym a => exact gen (by simpa only [powCreate] using h)
  | plus l => exact gen (by simpa only [powCreate] using h)
  | times l => exact gen (by simpa only [powCreate] using h)

theorem sqrt_sq (z : ℂ) : (z ^ ((1 / 2 : ℚ) : ℂ)) ^ ((2 : ℚ) : ℂ) = z := by
  have h := pow_int z (1 / 2) 2
  rw [show ((2 : ℚ) : ℂ) = ((2 : ℤ) : ℂ) by norm_num, h]
  norm_num

/-- C87: `sqrt(x)**2` has the value of `x`, for every scalar `x`. -/
theorem C87_sqrt_square (hN : N.Ok) {x s r : RX K} (hf : Flat x) (hs : sqrt N x = .ok s) (hr : powS N s 2 = .ok r) :
    rval N ρ r = rval N ρ x := by
  have two : ∃ n : ℤ, (2 : ℚ) = n := ⟨2, by norm_num⟩
  have gen : (∀ b q, x ≠ .pow b q) → powCreate N x (1 / 2) = .ok s → rval N ρ r = rval N ρ x := by
    intro hx h
    have h1 := powCreate_val (ρ := ρ) hN (e := 1 / 2) hf (by cases x <;> first | trivial | exact absurd rfl (hx _ _)) h
    have h2 := C87_pow_partial (ρ := ρ) hN (powCreate_flat hx h) (Or.inr two) hr
    rw [h2, h1]
    exact sqrt_sq _
  cases x with
  | zero => simp only [sqrt] at hs; cases hs; simp only [powS] at hr; cases hr; rfl
  | one => simp only [sqrt] at hs; cases hs; simp only [powS] at hr; cases hr; rfl
  | pow b q =>
    have hb : ∀ c p, b ≠ .pow c p := by rintro c p rfl; exact hf
    simp only [sqrt, powS] at hs
    have h1 := powCreate_val (ρ := ρ) hN (e := q * (1 / 2)) (x := b) (by cases b <;> first | trivial | exact absurd rfl (hb _ _))
      (by cases b <;> first | trivial | exact absurd rfl (hb _ _)) hs
    have h2 := C87_pow_partial (ρ := ρ) hN (powCreate_flat hb hs) (Or.inr two) hr
    rw [h2, h1, show ((2 : ℚ) : ℂ) = ((2 : ℤ) : ℂ) by norm_num, pow_int, rval]
    congr 2
    push_cast
    ring
  | val k => exact gen (by simp) hs
  | sym a => exact gen (by simp) hs
  | plus l => exact gen (by simp) hs
  | times l => exact gen (by simp) hs

/-- C87: for symbolic scalars, `sqrt(x)**2` is `x` itself. -/
theorem C87_sqrt_square_object {x s : RX K} (hx : (∃ a, x = .sym a) ∨ (∃ l, x = .plus l) ∨ (∃ l, x = .times l) ∨
    ∃ b q, x = .pow b q ∧ ((∃ a, b = .sym a) ∨ (∃ l, b = .plus l) ∨ (∃ l, b = .times l)) ∧ q ≠ 0 ∧ q ≠ 1) (hs : sqrt N x = .ok s) :
    powS N s 2 = .ok x := by
  have hh : ¬ ((1 : ℚ) / 2 = 0) := by norm_num
  have hh1 : ¬ ((1 : ℚ) / 2 = 1) := by norm_num
  have hh2 : (1 : ℚ) / 2 * 2 = 1 := by norm_num
  have key : ∀ b : RX K, ((∃ a, b = .sym a) ∨ (∃ l, b = .plus l) ∨ (∃ l, b = .times l)) →
      (∀ e, powCreate N b e = if e = 0 then .ok .one else if e = 1 then .ok b else .ok (.pow b e)) ∧ ∀ e, powS N b e = powCreate N b e := by
    rintro b (⟨a, rfl⟩ | ⟨a, rfl⟩ | ⟨a, rfl⟩) <;> exact ⟨fun e => by simp only [powCreate], fun e => rfl⟩
  have simple : ((∃ a, x = .sym a) ∨ (∃ l, x = .plus l) ∨ (∃ l, x = .times l)) → powS N s 2 = .ok x := by
    intro h
    obtain ⟨h1, h2⟩ := key x h
    have hs' : powS N x (1 / 2) = .ok s := by rcases h with ⟨a, rfl⟩ | ⟨a, rfl⟩ | ⟨a, rfl⟩ <;> exact hs
    rw [h2, h1, if_neg hh, if_neg hh1] at hs'
    cases hs'
    show powCreate N x (1 / 2 * 2) = _
    rw [hh2, h1]; simp
  rcases hx with h | h | h | ⟨b, q, rfl, hb, hq0, hq1⟩
  · exact simple (Or.inl h)
  · exact simple (Or.inr (Or.inl h))
  · exact simple (Or.inr (Or.inr h))
  · obtain ⟨h1, h2⟩ := key b hb
    have hs' : powCreate N b (q * (1 / 2)) = .ok s := hs
    rw [h1] at hs'
    have hq2 : ¬ (q * (1 / 2) = 0) := by
      intro h; exact hq0 (by linarith)
    rw [if_neg hq2] at hs'
    split at hs'
    · rename_i h3
      cases hs'
      have hq : q = 2 := by linarith
      rw [h2, h1, hq]; norm_num
    · cases hs'
      show powCreate N b (q * (1 / 2) * 2) = _
      rw [show q * (1 / 2) * 2 = q by ring, h1, if_neg hq0, if_neg hq1]

/-- C87 (partial: `x` is not a power): `sqrt(x)` is the principal square root: its real part is not negative. -/
theorem C87_sqrt_principal_partial (hN : N.Ok) {x s : RX K} (hx : ∀ b q, x ≠ .pow b q) (hs : sqrt N x = .ok s) :
    0 ≤ (rval N ρ s).re := by
  have hpos : ∀ z : ℂ, 0 ≤ (z ^ ((1 / 2 : ℚ) : ℂ)).re := by
    intro z
    by_cases hz : z = 0
    · subst hz; rw [Complex.zero_cpow (by norm_num)]; simp
    · have he : (((1 / 2 : ℚ) : ℂ)) = ((1 / 2 : ℝ) : ℂ) := by push_cast; ring
      rw [Complex.cpow_def_of_ne_zero hz, he, Complex.exp_re]
      refine mul_nonneg (Real.exp_pos _).le (Real.cos_nonneg_of_mem_Icc ?_)
      rw [Complex.im_mul_ofReal, Complex.log_im]
      have h1 := Complex.neg_pi_lt_arg z
      have h2 := Complex.arg_le_pi z
      constructor <;> linarith
  have gen : powS N x (1 / 2) = .ok s → 0 ≤ (rval N ρ s).re := by
    intro h
    have := C87_pow_partial (ρ := ρ) hN (by cases x <;> first | trivial | exact absurd rfl (hx _ _)) (Or.inl hx) h
    rw [this]
    exact hpos _
  cases x with
  | zero => simp only [sqrt] at hs; cases hs; simp [rval]
  | one => simp only [sqrt] at hs; cases hs; simp [rval]
  | pow b q => exact absurd rfl (hx b q)
  | val k => exact gen hs
  | sym a => exact gen hs
  | plus l => exact gen hs
  | times l => exact gen hs

/-- C87 is false of the code for the square root of a square: `sqrt(x**2)` is `x` for every symbolic scalar, also if the value of `x` is -1,
where the square root of `x**2 = 1` is 1. -/
theorem C87_refuted_sqrt (a : ℕ) : ∃ y : RX K, powS N (.sym a) 2 = .ok y ∧ sqrt N y = .ok (.sym a) ∧
    rval N (fun _ => -1) y = 1 ∧ rval N (fun _ => -1) (.sym a : RX K) = -1 := by
  refine ⟨.pow (.sym a) 2, ?_, ?_, ?_, by simp [rval]⟩
  · show powCreate N (.sym a) 2 = _
    simp only [powCreate]
    norm_num
  · show powCreate N (.sym a) (2 * (1 / 2)) = _
    simp only [powCreate]
    norm_num
  · simp only [rval]
    rw [show (((2 : ℚ)) : ℂ) = ((2 : ℕ) : ℂ) by norm_num, Complex.cpow_natCast]
    norm_num

/-! ### conjugation -/

theorem rvals_append (l m : List (RX K)) : rvals N ρ (l ++ m) = rvals N ρ l ++ rvals N ρ m := by
  induction l with
  | nil => rfl
  | cons x l ih => simp [rvals, ih]

theorem rvals_reverse_prod (l : List (RX K)) : (rvals N ρ l.reverse).prod = (rvals N ρ l).prod := by
  induction l with
  | nil => rfl
  | cons x l ih => simp [rvals, rvals_append, ih, mul_comm]

theorem conj_pow_real {b : ℂ} {e : ℚ} (h : b.arg ≠ Real.pi ∨ ∃ n : ℤ, e = n) :
    ((starRingEnd ℂ) b) ^ (e : ℂ) = (starRingEnd ℂ) (b ^ (e : ℂ)) := by
  have he : (starRingEnd ℂ) (e : ℂ) = (e : ℂ) := by
    rw [show ((e : ℚ) : ℂ) = ((e : ℝ) : ℂ) by norm_cast]; exact Complex.conj_ofReal _
  rcases h with h | ⟨n, rfl⟩
  · rw [Complex.conj_cpow b _ h, he]
  · rw [show ((n : ℚ) : ℂ) = (n : ℂ) by norm_cast, Complex.cpow_intCast, Complex.cpow_intCast, map_zpow₀]

mutual
theorem conj_val (hN : N.Ok) {cs : ℕ → ℕ} (hc : ∀ a, ρ (cs a) = (starRingEnd ℂ) (ρ a)) : ∀ x : RX K, OffCut N ρ x →
    rval N ρ (conj N cs x) = (starRingEnd ℂ) (rval N ρ x)
  | .zero, _ => by simp [conj, rval]
  | .one, _ => by simp [conj, rval]
  | .val k, _ => by simp only [conj, rval, hN.conj]
  | .sym a, _ => by simp only [conj, rval, hc]
  | .plus l, h => by
    simp only [OffCut] at h
    simp only [conj, rval, (conjs_val hN hc l h).1]
  | .times l, h => by
    simp only [OffCut] at h
    simp only [conj, rval, rvals_reverse_prod, (conjs_val hN hc l h).2]
  | .pow b e, h => by
    simp only [OffCut] at h
    simp only [conj, rval, conj_val hN hc b h.1]
    exact conj_pow_real h.2
theorem conjs_val (hN : N.Ok) {cs : ℕ → ℕ} (hc : ∀ a, ρ (cs a) = (starRingEnd ℂ) (ρ a)) : ∀ l : List (RX K), OffCuts N ρ l →
    (rvals N ρ (conjs N cs l)).sum = (starRingEnd ℂ) (rvals N ρ l).sum ∧ (rvals N ρ (conjs N cs l)).prod = (starRingEnd ℂ) (rvals N ρ l).prod
  | [], _ => by simp [conjs, rvals]
  | x :: l, h => by
    simp only [OffCuts] at h
    simp only [conjs, rvals, List.sum_cons, List.prod_cons, conj_val hN hc x h.1, (conjs_val hN hc l h.2).1, (conjs_val hN hc l h.2).2, map_add,
      map_mul, and_self]
end

/-- C87 (partial: no fractional power of a negative number): `conjugate()` denotes the complex conjugate, `real` and `imag` the real and
imaginary part. -/
theorem C87_conjugate_partial (hN : N.Ok) {cs : ℕ → ℕ} (hc : ∀ a, ρ (cs a) = (starRingEnd ℂ) (ρ a)) (x : RX K) (hx : OffCut N ρ x) :
    rval N ρ (conj N cs x) = (starRingEnd ℂ) (rval N ρ x) ∧ rval N ρ (real N cs x) = ((rval N ρ x).re : ℂ) ∧
    rval N ρ (imag N cs x) = ((rval N ρ x).im : ℂ) := by
  have h := conj_val hN hc x hx
  refine ⟨h, ?_, ?_⟩
  · simp only [real, rval, rvals, List.prod_cons, List.prod_nil, List.sum_cons, List.sum_nil, h, hN.half]
    apply Complex.ext <;> simp
    ring
  · simp only [imag, rval, rvals, List.prod_cons, List.prod_nil, List.sum_cons, List.sum_nil, h, hN.ihalf, hN.mone]
    apply Complex.ext <;> simp
    ring

/-- C87 is false of the code for the conjugate of the square root of a negative number: the conjugate of `sqrt(x)` is `sqrt(conj(x))`, so
for the value `x = -1` it is `i` instead of `-i`. -/
theorem C87_refuted_conjugate (a : ℕ) : sqrt N (.sym a) = .ok (.pow (.sym a) (1 / 2)) ∧
    rval N (fun _ => -1) (conj N id (.pow (.sym a) (1 / 2) : RX K)) = Complex.I ∧
    (starRingEnd ℂ) (rval N (fun _ => -1) (.pow (.sym a) (1 / 2) : RX K)) = -Complex.I := by
  have hi : ((-1 : ℂ)) ^ (((1 / 2 : ℚ)) : ℂ) = Complex.I := by
    rw [Complex.cpow_def_of_ne_zero (by norm_num), Complex.log_neg_one]
    rw [show (Real.pi : ℂ) * Complex.I * (((1 / 2 : ℚ)) : ℂ) = (Real.pi / 2 : ℂ) * Complex.I by push_cast; ring, Complex.exp_pi_div_two_mul_I]
  refine ⟨?_, ?_, ?_⟩
  · show powCreate N (.sym a) (1 / 2) = _
    simp only [powCreate]
    norm_num
  · simp only [conj, rval, id, hi]
  · simp only [rval, hi, Complex.conj_I]

/-- the hypotheses are satisfiable: complex numbers -/
noncomputable def complexNums : Nums ℂ := ⟨id, fun k q => some (k ^ (q : ℂ)), starRingEnd ℂ, 1 / 2, Complex.I / 2, -1⟩

theorem complexNums_ok : complexNums.Ok :=
  ⟨fun k q r h => by injection h with h; exact h.symm, fun _ => rfl, rfl, rfl, rfl⟩

example : rval complexNums (fun _ => 4) (conj complexNums id (.plus [.pow (.sym 0) (1 / 2), .val Complex.I])) =
    (starRingEnd ℂ) (rval complexNums (fun _ => 4) (.plus [.pow (.sym 0) (1 / 2), .val Complex.I])) :=
  (C87_conjugate_partial complexNums_ok (fun _ => (map_ofNat (starRingEnd ℂ) 4).symm) _ (by
    have h : Complex.arg 4 ≠ Real.pi := by
      have := Complex.arg_ofReal_of_nonneg (x := 4) (by norm_num)
      rw [show ((4 : ℝ) : ℂ) = 4 by norm_num] at this
      rw [this]; exact Real.pi_ne_zero.symm
    simp only [OffCut, OffCuts, rval, and_true, true_and]
    exact Or.inl h)).1

end QNET.Scalar.Root
