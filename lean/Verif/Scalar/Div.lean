import Verif.Scalar.Total
import Mathlib.Data.Rat.Floor
import Mathlib.Algebra.Order.Floor.Ring

/-!
# C86: division of scalars

Model of `/`, `//` and `%` of scalars (`src/qnet/algebra/core/scalar_algebra.py`). As in `Verif.Scalar.Model`, numbers are the elements of a
field `K`. `ZeroDivisionError` is `Err.other`.
-/

namespace QNET.Scalar

open QNET.Perm (Res Err)
open QNET.Engine (Ev)
open QNET.QAlg (ev_bind ev_const ev_congr)
open QNET.Indexed (Except.bind_ok)

variable {K : Type} [Field K] [DecidableEq K] (Γ : Ctx K)

/-- `x / y` of scalars: ScalarValue lines 388-399, Zero lines 596-602, One lines 768-774 (for a symbolic scalar: `super().__floordiv__`, which is
`NotImplemented`, so that `y.__rtruediv__(One)`, lines 142-154, decides), others lines 88-101 and
abstract_quantum_algebra.py lines 264-272, where `1/y` is `y.__rtruediv__(1)`, i.e. `ScalarPower.create(y, -1)`. -/
def truediv (x y : SX K) : Res (SX K) :=
  match x, y with
  | .val a, .val b => if b = 0 then .error .other else .ok (create (a / b))
  | .zero, .val b => if b = 0 then .error .other else .ok (create (0 / b))
  | .one, .val b => if b = 0 then .error .other else .ok (create (1 / b))
  | .one, y => if isOne y then .ok .one else if isZero y then .error .other else powCreate y (-1)
  | x, .val b => if b = 1 then .ok x else if b = 0 then .error .other else mul Γ (.val (1 / b)) x
  | x, y =>
    if isOne y then .ok x
    else if isZero y then .error .other
    else if scEq y x then .ok .one
    else powCreate y (-1) >>= mul Γ x

/-- `x / k` for a number: ScalarValue lines 391-397, Zero lines 599-600, One lines 771-772, others lines 88-100 -/
def divNum (x : SX K) (k : K) : Res (SX K) :=
  match x with
  | .val a => if k = 0 then .error .other else .ok (create (a / k))
  | .zero => if k = 0 then .error .other else .ok (create (0 / k))
  | .one => if k = 0 then .error .other else .ok (create (1 / k))
  | x => if k = 1 then .ok x else if k = 0 then .error .other else mul Γ (.val (1 / k)) x

/-- `k / x` for a number: ScalarValue lines 447-453, Zero lines 640-641, One line 804 (`__rtruediv__ = __mul__`), others lines 142-154 -/
def numDiv (k : K) (x : SX K) : Res (SX K) :=
  match x with
  | .val a => if a = 0 then .error .other else .ok (create (k / a))
  | .zero => .error .other
  | .one => .ok (create k)
  | x => if k = 0 then .ok .zero else if k = 1 then powCreate x (-1) else powCreate x (-1) >>= fun p => mulNum Γ p k

section floor
variable (fd md : K → K → K)

/-- `x // k` for a number; `fd`, `md` are Python's `//` and `%` of numbers. ScalarValue lines 381-382, Zero lines 590-591, One lines 762-763;
for other scalars lines 77-86: `x // 1` calls itself, and there is nothing else (`NotImplemented`). -/
def floordivNum (x : SX K) (k : K) : Res (SX K) :=
  match x with
  | .val a => if k = 0 then .error .other else .ok (create (fd a k))
  | .zero => if k = 0 then .error .other else .ok (create (fd 0 k))
  | .one => if k = 0 then .error .other else .ok (create (fd 1 k))
  | _ => if k = 1 then .error .recursion else if k = 0 then .error .other else .error .typeError

/-- `x // y` of scalars: ScalarValue lines 378-384, Zero lines 587-594, One lines 759-766, others lines 77-86; if the method returns
`NotImplemented`, Python calls `y.__rfloordiv__(x)`, lines 132-139, which is `Zero` if `x == 0`. -/
def floordiv (x y : SX K) : Res (SX K) :=
  match x, y with
  | .val a, .val b => if b = 0 then .error .other else .ok (create (fd a b))
  | .zero, .val b => if b = 0 then .error .other else .ok (create (fd 0 b))
  | .one, .val b => if b = 0 then .error .other else .ok (create (fd 1 b))
  | x, y =>
    if isOne y then floordivNum fd x 1
    else if isZero y then .error .other
    else if isZero x then .ok .zero
    else .error .typeError

/-- `x % k` for a number: ScalarValue lines 404-405, Zero lines 607-608, One lines 779-780, others lines 103-112 -/
def modNum (x : SX K) (k : K) : Res (SX K) :=
  match x with
  | .val a => if k = 0 then .error .other else .ok (create (md a k))
  | .zero => if k = 0 then .error .other else .ok (create (md 0 k))
  | .one => if k = 0 then .error .other else .ok (create (md 1 k))
  | _ => if k = 1 then .ok .zero else if k = 0 then .error .other else .error .typeError

/-- `x % y` of scalars: ScalarValue lines 401-407, Zero lines 604-610, One lines 776-782, others lines 103-112: everything modulo `One`
is `Zero`; then `y.__rmod__(x)`, lines 156-163. -/
def mod (x y : SX K) : Res (SX K) :=
  match x, y with
  | .val a, .val b => if b = 0 then .error .other else .ok (create (md a b))
  | .zero, .val b => if b = 0 then .error .other else .ok (create (md 0 b))
  | .one, .val b => if b = 0 then .error .other else .ok (create (md 1 b))
  | x, y =>
    if isOne y then .ok .zero
    else if isZero y then .error .other
    else if isZero x then .ok .zero
    else .error .typeError
end floor

/-! ### proofs -/

section proofs
variable {L : Type} [Field L] [Algebra K L] {ρ : ℕ → L} {Γ}

theorem inv_val (b : K) : V ρ (.val (1 / b) : SX K) ((algebraMap K L b)⁻¹) := by simp [V, Def, sval]

theorem pow_inv_V {y r : SX K} (hy : Def ρ y) (h0 : sval ρ y ≠ 0) (h : powCreate y (-1) = .ok r) : V ρ r (sval ρ y)⁻¹ := by
  have := powCreate_V y (-1) r hy (fun _ => h0) h
  rwa [zpow_neg_one] at this

theorem truediv_V (hΓ : SortCtx Γ) {x y r : SX K} (hx : Def ρ x) (hy : Def ρ y) (h0 : sval ρ y ≠ 0) (h : truediv Γ x y = .ok r) :
    V ρ r (sval ρ x / sval ρ y) := by
  have hq : ∀ a b : K, (if b = 0 then (.error .other : Res (SX K)) else .ok (create (a / b))) = .ok r →
      V ρ r (algebraMap K L a / algebraMap K L b) := by
    intro a b h
    split at h
    · cases h
    · cases h; rw [← map_div₀]; exact create_V _
  unfold truediv at h
  split at h
  · exact hq _ _ h
  · have := hq 0 _ h; rwa [map_zero] at this
  · have := hq 1 _ h; rwa [map_one] at this
  · split at h
    · rename_i h1; cases h; rw [isOne_val h1]; simp [V, Def, sval]
    · split at h
      · cases h
      · have := pow_inv_V hy h0 h
        simpa [sval] using this
  · split at h
    · rename_i h1; cases h; subst h1; simp [V, hx, sval]
    · split at h
      · cases h
      · rename_i b _ _ _ _ _
        have h2 := inv_val (ρ := ρ) b
        have := mul_V hΓ h2.1 hx h
        rwa [h2.2, mul_comm, ← div_eq_mul_inv] at this
  · split at h
    · rename_i h1; cases h; rw [isOne_val h1]; simp [V, hx]
    · split at h
      · cases h
      · split at h
        · rename_i h1; cases h
          rw [scEq_val h1] at h0 ⊢
          simp [V, Def, sval, div_self h0]
        · obtain ⟨p, h1, h2⟩ := Except.bind_ok h
          have h3 := pow_inv_V hy h0 h1
          have := mul_V hΓ hx h3.1 h2
          rwa [h3.2, ← div_eq_mul_inv] at this

theorem divNum_V (hΓ : SortCtx Γ) {x r : SX K} {k : K} (hx : Def ρ x) (h : divNum Γ x k = .ok r) :
    k ≠ 0 ∧ V ρ r (sval ρ x / algebraMap K L k) := by
  have hq : ∀ a : K, (if k = 0 then (.error .other : Res (SX K)) else .ok (create (a / k))) = .ok r →
      k ≠ 0 ∧ V ρ r (algebraMap K L a / algebraMap K L k) := by
    intro a h
    split at h
    · cases h
    · rename_i h0; cases h; rw [← map_div₀]; exact ⟨h0, create_V _⟩
  unfold divNum at h
  split at h
  · exact hq _ h
  · have := hq 0 h; rwa [map_zero] at this
  · have := hq 1 h; rwa [map_one] at this
  · split at h
    · rename_i h1; cases h; subst h1; simp [V, hx]
    · split at h
      · cases h
      · rename_i h0
        have h2 := inv_val (ρ := ρ) k
        have := mul_V hΓ h2.1 hx h
        rw [h2.2, mul_comm, ← div_eq_mul_inv] at this
        exact ⟨h0, this⟩

/-- C86: `x / y`, `x / k` and `k / x` denote the quotients, for scalars `x`, `y` and numbers `k`, in every field and for every assignment
of values under which the divisor is not zero. -/
theorem C86_value (hΓ : SortCtx Γ) {x y r : SX K} (hx : Def ρ x) (hy : Def ρ y) (k : K) :
    (sval ρ y ≠ 0 → truediv Γ x y = .ok r → sval ρ r = sval ρ x / sval ρ y) ∧
    (divNum Γ x k = .ok r → k ≠ 0 ∧ sval ρ r = sval ρ x / algebraMap K L k) ∧
    (sval ρ y ≠ 0 → numDiv Γ k y = .ok r → sval ρ r = algebraMap K L k / sval ρ y) := by
  refine ⟨fun h0 h => (truediv_V hΓ hx hy h0 h).2, fun h => ⟨(divNum_V hΓ hx h).1, (divNum_V hΓ hx h).2.2⟩, fun h0 h => ?_⟩
  unfold numDiv at h
  split at h
  · split at h
    · cases h
    · cases h; rw [(create_V (ρ := ρ) _).2, map_div₀, sval]
  · cases h
  · cases h; rw [(create_V (ρ := ρ) _).2]; simp [sval]
  · split at h
    · rename_i h1; cases h; subst h1; simp [sval]
    · split at h
      · rename_i h1; subst h1; rw [(pow_inv_V hy h0 h).2]; simp
      · obtain ⟨p, h1, h2⟩ := Except.bind_ok h
        have h3 := pow_inv_V hy h0 h1
        rw [(C35_numbers hΓ h3.1).2.1 h2, h3.2, div_eq_mul_inv]

/-- C86: dividing anything by a scalar that is zero raises `ZeroDivisionError`, whatever the scalar looks like -/
theorem C86_zero (x y : SX K) (k : K) (hy : isZero y = true) (hk : k = 0) :
    truediv Γ x y = .error .other ∧ divNum Γ x k = .error .other ∧ numDiv Γ k y = .error .other := by
  subst hk
  refine ⟨?_, ?_, ?_⟩
  · cases y with
    | val b =>
      have : b = 0 := by simpa [isZero] using hy
      subst this
      cases x <;> simp [truediv]
    | zero => cases x <;> simp [truediv, isOne, isZero]
    | _ => simp [isZero] at hy
  · cases x <;> simp [divNum]
  · cases y with
    | val b =>
      have : b = 0 := by simpa [isZero] using hy
      subst this
      simp [numDiv]
    | zero => rfl
    | _ => simp [isZero] at hy

/-- C86: division by a scalar that is not zero (for some assignment of values for which both are defined) always succeeds, for every
sufficiently large recursion limit; a quotient of scalars is a scalar. -/
theorem C86_total (hΓ : SortCtx Γ) {x y : SX K} (hx : Def ρ x) (hy : Def ρ y) (h0 : sval ρ y ≠ 0) (k : K) :
    (∃ N r, ∀ n, N ≤ n → truediv (Γ.limit n) x y = .ok r) ∧ (k ≠ 0 → ∃ N r, ∀ n, N ≤ n → divNum (Γ.limit n) x k = .ok r) ∧
    ∃ N r, ∀ n, N ≤ n → numDiv (Γ.limit n) k y = .ok r := by
  have hb : ∀ b : K, y = .val b → b ≠ 0 := by rintro b rfl rfl; simp [sval] at h0
  have hz : isZero y = false := by
    cases h : isZero y with
    | false => rfl
    | true => exact absurd (isZero_val h) h0
  obtain ⟨p, hp⟩ := powCreate_total (ρ := ρ) y (-1) hy (fun _ => h0)
  have hpV := pow_inv_V hy h0 hp
  have swap : ∀ {f : ℕ → Res (SX K)}, (∃ r, Ev f r) → ∃ N r, ∀ n, N ≤ n → f n = .ok r := fun ⟨r, N, h⟩ => ⟨N, r, h⟩
  refine ⟨swap ?_, fun hk => swap ?_, swap ?_⟩
  · obtain ⟨r, hr⟩ := mul_ev (ρ := ρ) hΓ hx hpV.1
    unfold truediv
    split
    · exact ⟨_, ev_congr (fun n => if_neg (hb _ rfl)) (ev_const _)⟩
    · exact ⟨_, ev_congr (fun n => if_neg (hb _ rfl)) (ev_const _)⟩
    · exact ⟨_, ev_congr (fun n => if_neg (hb _ rfl)) (ev_const _)⟩
    · by_cases h1 : isOne y = true
      · exact ⟨_, ev_congr (fun n => if_pos h1) (ev_const _)⟩
      · exact ⟨p, ev_congr (fun n => by rw [if_neg h1, if_neg (by simp [hz]), hp]) (ev_const _)⟩
    · rename_i b _ _ _
      obtain ⟨s, hs⟩ := mul_ev (ρ := ρ) (y := x) hΓ (inv_val (ρ := ρ) b).1 hx
      by_cases h1 : b = 1
      · exact ⟨_, ev_congr (fun n => if_pos h1) (ev_const _)⟩
      · exact ⟨s, ev_congr (fun n => by rw [if_neg h1, if_neg (hb b rfl)]) hs⟩
    · by_cases h1 : isOne y = true
      · exact ⟨_, ev_congr (fun n => if_pos h1) (ev_const _)⟩
      · by_cases h2 : scEq y x = true
        · exact ⟨_, ev_congr (fun n => by rw [if_neg h1, if_neg (by simp [hz]), if_pos h2]) (ev_const _)⟩
        · exact ⟨r, ev_congr (fun n => by rw [if_neg h1, if_neg (by simp [hz]), if_neg h2, hp]; rfl) hr⟩
  · obtain ⟨s, hs⟩ := mul_ev (ρ := ρ) (y := x) hΓ (inv_val (ρ := ρ) k).1 hx
    unfold divNum
    split
    · exact ⟨_, ev_congr (fun n => if_neg hk) (ev_const _)⟩
    · exact ⟨_, ev_congr (fun n => if_neg hk) (ev_const _)⟩
    · exact ⟨_, ev_congr (fun n => if_neg hk) (ev_const _)⟩
    · by_cases h1 : k = 1
      · exact ⟨_, ev_congr (fun n => if_pos h1) (ev_const _)⟩
      · exact ⟨s, ev_congr (fun n => by rw [if_neg h1, if_neg hk]) hs⟩
  · unfold numDiv
    split
    · exact ⟨_, ev_congr (fun n => if_neg (hb _ rfl)) (ev_const _)⟩
    · exact absurd (by simp [sval]) h0
    · exact ⟨_, ev_const _⟩
    · by_cases h1 : k = 0
      · exact ⟨_, ev_congr (fun n => if_pos h1) (ev_const _)⟩
      · by_cases h2 : k = 1
        · exact ⟨p, ev_congr (fun n => by rw [if_neg h1, if_pos h2, hp]) (ev_const _)⟩
        · have hm : ∃ r, Ev (fun n => mulNum (Γ.limit n) p k) r := by
            obtain ⟨s, hs⟩ := timesCreate_ev (ρ := ρ) hΓ (ops := [create k, p]) (by
              intro z hz
              rcases List.mem_cons.mp hz with rfl | hz
              · exact (create_V k).1
              · rw [List.mem_singleton] at hz; subst hz; exact hpV.1)
            unfold mulNum
            split
            · exact ⟨_, ev_const _⟩
            · exact ⟨_, ev_const _⟩
            · exact ⟨_, ev_const _⟩
            · exact ⟨s, ev_congr (fun n => by rw [if_neg h2, if_neg h1]) hs⟩
          obtain ⟨r, hr⟩ := hm
          exact ⟨r, ev_congr (fun n => by rw [if_neg h1, if_neg h2, hp]; rfl) hr⟩

end proofs

/-- C86: `//` of wrapped numbers (including `Zero` and `One`) is `//` of the numbers. -/
theorem C86_floordiv (fd : K → K → K) {x y : SX K} {a b : K} (hx : Proper x) (hy : Proper y) (ha : toFloat x = some a) (hb : toFloat y = some b)
    (h0 : b ≠ 0) : floordiv fd x y = .ok (create (fd a b)) ∧ floordivNum fd x b = .ok (create (fd a b)) := by
  cases y with
  | val b' =>
    simp only [toFloat, Option.some.injEq] at hb; subst hb
    cases x <;> simp only [toFloat, Option.some.injEq, reduceCtorEq] at ha <;> subst ha <;> simp [floordiv, floordivNum, h0]
  | zero => simp only [toFloat, Option.some.injEq] at hb; exact absurd hb.symm h0
  | one =>
    simp only [toFloat, Option.some.injEq] at hb; subst hb
    cases x <;> simp only [toFloat, Option.some.injEq, reduceCtorEq] at ha <;> subst ha <;> simp [floordiv, floordivNum, isOne]
  | _ => simp [Proper] at hy

/-- C86 (partial: the divisor is not `One`): `%` of wrapped numbers is `%` of the numbers. -/
theorem C86_mod_partial (md : K → K → K) {x y : SX K} {a b : K} (hy : Proper y) (hy1 : y ≠ .one) (ha : toFloat x = some a) (hb : toFloat y = some b)
    (h0 : b ≠ 0) : mod md x y = .ok (create (md a b)) ∧ modNum md x b = .ok (create (md a b)) := by
  cases y with
  | val b' =>
    simp only [toFloat, Option.some.injEq] at hb; subst hb
    cases x <;> simp only [toFloat, Option.some.injEq, reduceCtorEq] at ha <;> subst ha <;> simp [mod, modNum, h0]
  | zero => simp only [toFloat, Option.some.injEq] at hb; exact absurd hb.symm h0
  | one => exact absurd rfl hy1
  | _ => simp [Proper] at hy

/-- C86: `//` and `%` by zero raise `ZeroDivisionError`. -/
theorem C86_floor_zero (fd md : K → K → K) (x : SX K) : floordiv fd x .zero = .error .other ∧ mod md x .zero = .error .other ∧
    floordivNum fd x 0 = .error .other ∧ modNum md x 0 = .error .other := by
  cases x <;> simp [floordiv, mod, floordivNum, modNum, isOne, isZero]

/-- Python's `%` of rational numbers -/
def ratMod (a b : ℚ) : ℚ := a - b * ⌊a / b⌋

/-- C86 is false of the code for `%` with the scalar one: `5/2 % One` is `Zero`, while `5/2 % 1` is 1/2. -/
theorem C86_refuted_mod_one : mod ratMod (.val (5 / 2)) .one = .ok .zero ∧ modNum ratMod (.val (5 / 2)) 1 = .ok (.val (1 / 2)) := by
  refine ⟨rfl, ?_⟩
  have : ratMod (5 / 2) 1 = 1 / 2 := by unfold ratMod; norm_num
  simp only [modNum, this, create]
  norm_num

/-- C86 is false of the code for `// 1` of a symbolic scalar: the method calls itself without end; and there is no other `//` or `%` of
symbolic scalars, except that everything modulo 1 is taken to be zero. -/
theorem C86_refuted_floordiv (fd md : K → K → K) (a : ℕ) : floordivNum fd (.sym a : SX K) 1 = .error .recursion ∧
    floordiv fd (.sym a : SX K) .one = .error .recursion ∧ modNum md (.sym a : SX K) 1 = .ok .zero := by
  refine ⟨by simp [floordivNum], by simp [floordiv, floordivNum, isOne], by simp [modNum]⟩

/-! Concrete cases -/
example : truediv (Ctx.plain ℚ) (.val 3) (.val 6) = .ok (.val (1 / 2)) := by kernel_rfl
example : truediv (Ctx.plain ℚ) (.sym 0) (.sym 1) = .ok (.times [.sym 0, .pow (.sym 1) (-1)]) := by kernel_rfl
example : truediv (Ctx.plain ℚ) (.sym 0) (.sym 0) = .ok .one := by kernel_rfl
example : truediv (Ctx.plain ℚ) .one (.pow (.sym 0) (-1)) = .ok (.sym 0) := by kernel_rfl
example : numDiv (Ctx.plain ℚ) 2 (.sym 0) = .ok (.times [.val 2, .pow (.sym 0) (-1)]) := by kernel_rfl
example : divNum (Ctx.plain ℚ) (.times [.val 2, .sym 0]) 2 = .ok (.sym 0) := by kernel_rfl
/-- the hypotheses of `C86_total` hold for `x / y` with the values 2 and 3 -/
example : ∃ N r, ∀ n, N ≤ n → truediv ((Ctx.plain ℚ).limit n) (.sym 0) (.sym 1) = .ok r :=
  (C86_total (ρ := fun n => (n + 2 : ℚ)) (x := .sym 0) (y := .sym 1) ⟨fun _ => .refl _, fun _ => .refl _⟩ (by simp [Def]) (by simp [Def])
    (by simp [sval]; norm_num) 1).1

end QNET.Scalar
