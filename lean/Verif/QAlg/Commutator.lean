import Verif.QAlg.Diff
import Mathlib.LinearAlgebra.Matrix.Notation

/-! # C36: commutators and `expand_commutators_leibniz` -/

namespace QNET.QAlg

open QNET.Perm (Res Err)
open QNET.Indexed (Except.bind_ok mapM_ok_cons mapM_ok_forall₂)

variable {K : Type} [CommRing K] [DecidableEq K] (Γ : Ctx K)

/-- `leibniz_right(A, BC)`, toolbox/commutator_manipulation.py lines 38-42 (`bc` are the operands of `BC`) -/
def leibnizRight (n : ℕ) (A : QX K) : List (QX K) → Res (QX K)
  | [] => .error .indexError
  | B :: cs =>
    timesCreate Γ n cs >>= fun C => commCreate Γ n A B >>= fun x => mul Γ n x C >>= fun p =>
    commCreate Γ n A C >>= fun y => mul Γ n B y >>= fun q => add Γ n p q

/-- `leibniz_left(AB, C)`, lines 44-48; note the direct instantiation of the remaining product -/
def leibnizLeft (n : ℕ) (C : QX K) : List (QX K) → Res (QX K)
  | [] => .error .indexError
  | A :: bs =>
    commCreate Γ n (.times bs) C >>= fun x => mul Γ n A x >>= fun p => commCreate Γ n A C >>= fun y => mul Γ n y (.times bs) >>= fun q => add Γ n p q

/-- `_apply_rules_no_recurse(e, rules)` with the two rules `leibniz1`, `leibniz2`, lines 50-56; `rec` is `recurse` -/
def leibnizRule (rec : QX K → Res (QX K)) (n : ℕ) (e : QX K) : Res (QX K) :=
  match e with
  | .comm A (.times bc) => leibnizRight Γ n A bc >>= expand Γ n >>= rec
  | .comm (.times ab) C => leibnizLeft Γ n C ab >>= expand Γ n >>= rec
  | e => .ok e

/-- `_apply_rules(expr, rules)`: re-instantiate from the innermost sub-expressions outwards, applying `f` to every instance
(abstract_algebra.py lines 712-790; that the stack machine there does this is theorem `C42_stack_is_recursion`). Singletons and symbols have no
operands that could change. -/
def bottomUpStep (bu : QX K → Res (QX K)) (f : QX K → Res (QX K)) (n : ℕ) : QX K → Res (QX K)
  | .scal c t => bu t >>= mulScal Γ n c >>= f
  | .plus l => l.mapM bu >>= plusCreate Γ n >>= f
  | .times l => l.mapM bu >>= timesCreate Γ n >>= f
  | .comm a b => bu a >>= fun a' => bu b >>= fun b' => commCreate Γ n a' b' >>= f
  | x => f x

/-- `_apply_rules` with a recursion depth -/
def bottomUp (f : QX K → Res (QX K)) : ℕ → QX K → Res (QX K)
  | 0, _ => .error .recursion
  | n + 1, x => bottomUpStep Γ (bottomUp f n) f n x

/-- `expand_commutators_leibniz(expr, expand_expr)`, lines 15-62 -/
def leibniz (ee : Bool) : ℕ → QX K → Res (QX K)
  | 0, _ => .error .recursion
  | n + 1, e =>
    if ee then expand Γ n e >>= bottomUp Γ (leibnizRule Γ (leibniz ee n) n) n >>= expand Γ n
    else bottomUp Γ (leibnizRule Γ (leibniz ee n) n) n e

section
variable {Γ} {A : Type} [Ring A] [Algebra K A] {ρ : ℕ → A}

theorem leibnizRight_val (hΓ : SoundCtx Γ ρ) {n : ℕ} {a r : QX K} {bc : List (QX K)} (h : leibnizRight Γ n a bc = .ok r) :
    val ρ r = val ρ (.comm a (.times bc)) := by
  have hc := fun {x y r : QX K} => C30_arithmetic (n := n) (x := x) (y := y) (r := r) (c := (0 : K)) hΓ
  match bc, h with
  | b :: cs, h =>
    obtain ⟨c, h1, h⟩ := Except.bind_ok h
    obtain ⟨x, h2, h⟩ := Except.bind_ok h
    obtain ⟨p, h3, h⟩ := Except.bind_ok h
    obtain ⟨y, h4, h⟩ := Except.bind_ok h
    obtain ⟨q, h5, h⟩ := Except.bind_ok h
    rw [hc.2.1 h, hc.1 h3, hc.1 h5, commCreate_val hΓ n _ _ _ h2, commCreate_val hΓ n _ _ _ h4, (times_sound hΓ n).1 _ _ h1, val, val_times,
      List.map_cons, List.prod_cons]
    noncomm_ring

theorem leibnizLeft_val (hΓ : SoundCtx Γ ρ) {n : ℕ} {c r : QX K} {ab : List (QX K)} (h : leibnizLeft Γ n c ab = .ok r) :
    val ρ r = val ρ (.comm (.times ab) c) := by
  have hc := fun {x y r : QX K} => C30_arithmetic (n := n) (x := x) (y := y) (r := r) (c := (0 : K)) hΓ
  match ab, h with
  | a :: bs, h =>
    obtain ⟨x, h2, h⟩ := Except.bind_ok h
    obtain ⟨p, h3, h⟩ := Except.bind_ok h
    obtain ⟨y, h4, h⟩ := Except.bind_ok h
    obtain ⟨q, h5, h⟩ := Except.bind_ok h
    rw [hc.2.1 h, hc.1 h3, hc.1 h5, commCreate_val hΓ n _ _ _ h2, commCreate_val hΓ n _ _ _ h4]
    simp only [val, vals, List.prod_cons]
    noncomm_ring

theorem leibnizRule_val (hΓ : SoundCtx Γ ρ) {n : ℕ} {rec : QX K → Res (QX K)} (hrec : ∀ x r, rec x = .ok r → val ρ r = val ρ x) (e r : QX K)
    (h : leibnizRule Γ rec n e = .ok r) : val ρ r = val ρ e := by
  unfold leibnizRule at h
  split at h
  · obtain ⟨y, h1, h2⟩ := Except.bind_ok h
    obtain ⟨x, h3, h4⟩ := Except.bind_ok h1
    rw [hrec _ _ h2, C30_value hΓ h4, leibnizRight_val hΓ h3]
  · obtain ⟨y, h1, h2⟩ := Except.bind_ok h
    obtain ⟨x, h3, h4⟩ := Except.bind_ok h1
    rw [hrec _ _ h2, C30_value hΓ h4, leibnizLeft_val hΓ h3]
  · cases h; rfl

theorem bottomUp_val (hΓ : SoundCtx Γ ρ) {f : QX K → Res (QX K)} (hf : ∀ x r, f x = .ok r → val ρ r = val ρ x) :
    ∀ (n : ℕ) (x r : QX K), bottomUp Γ f n x = .ok r → val ρ r = val ρ x := by
  intro n
  induction n with
  | zero => intro x r h; cases h
  | succ n ih =>
    intro x r h
    rw [bottomUp] at h
    obtain ⟨hm, hp⟩ := lin_sound (val_linear ρ) hΓ.sortPlus n
    cases x with
    | atom a => exact hf _ _ h
    | zero => exact hf _ _ h
    | one => exact hf _ _ h
    | scal c t =>
      obtain ⟨y, h, h3⟩ := Except.bind_ok h
      obtain ⟨x, h1, h2⟩ := Except.bind_ok h
      rw [hf _ _ h3, hm _ _ _ h2, ih _ _ h1, val]
    | plus l =>
      obtain ⟨y, h, h3⟩ := Except.bind_ok h
      obtain ⟨x, h1, h2⟩ := Except.bind_ok h
      rw [hf _ _ h3, hp _ _ h2, forall₂_map_eq (mapM_ok_forall₂ h1) (f := val ρ) (fun a b hab => ih _ _ hab), (val_linear ρ).plus]
    | times l =>
      obtain ⟨y, h, h3⟩ := Except.bind_ok h
      obtain ⟨x, h1, h2⟩ := Except.bind_ok h
      rw [hf _ _ h3, (times_sound hΓ n).1 _ _ h2, forall₂_map_eq (mapM_ok_forall₂ h1) (f := val ρ) (fun a b hab => ih _ _ hab), val_times]
    | comm a b =>
      obtain ⟨a', h1, h⟩ := Except.bind_ok h
      obtain ⟨b', h2, h⟩ := Except.bind_ok h
      obtain ⟨c, h3, h4⟩ := Except.bind_ok h
      rw [hf _ _ h4, commCreate_val hΓ n _ _ _ h3, ih _ _ h1, ih _ _ h2, val]

/-- C36: `Commutator.create(A, B)` - whatever disjointness test, ordering of the arguments, extraction of scalar factors or special rule is
applied - denotes `A*B - B*A`, in every associative algebra in which operators on disjoint spaces commute and the special rules for
products and for `[a^dagger, a]` hold. -/
theorem C36_create (hΓ : SoundCtx Γ ρ) {n : ℕ} {x y r : QX K} (h : commCreate Γ n x y = .ok r) :
    val ρ r = val ρ x * val ρ y - val ρ y * val ρ x := commCreate_val hΓ n x y r h

/-- C36: `expand_commutators_leibniz` does not change the value of an expression, with and without `expand_expr`. -/
theorem C36_leibniz (hΓ : SoundCtx Γ ρ) (ee : Bool) : ∀ (n : ℕ) (x r : QX K), leibniz Γ ee n x = .ok r → val ρ r = val ρ x := by
  intro n
  induction n with
  | zero => intro x r h; cases h
  | succ n ih =>
    intro x r h
    rw [leibniz] at h
    have hb := bottomUp_val hΓ (leibnizRule_val hΓ (n := n) ih) n
    split at h
    · obtain ⟨z, h1, h2⟩ := Except.bind_ok h
      obtain ⟨y, h3, h4⟩ := Except.bind_ok h1
      rw [C30_value hΓ h2, hb _ _ h4, C30_value hΓ h3]
    · exact hb _ _ h

end

/-! ## Concrete cases -/

/-- `[A*B, C] = A*[B, C] + [A, C]*B` -/
example : leibniz (Ctx.plain ℤ) true 14 (.comm (.times [.atom 0, .atom 1]) (.atom 2))
    = .ok (.plus [.times [.atom 0, .comm (.atom 1) (.atom 2)], .times [.comm (.atom 0) (.atom 2), .atom 1]]) := by kernel_rfl

/-- arguments in a standard order (here: larger symbol first), disjoint spaces (symbols 10 and above) -/
def Ctx.ordered : Ctx ℤ := { Ctx.plain ℤ with
  commLt := fun x y => match x, y with | .atom a, .atom b => decide (b < a) | _, _ => false
  disjoint := fun x y => match x, y with | .atom a, .atom b => decide (10 ≤ a ∧ b < 10) || decide (10 ≤ b ∧ a < 10) | _, _ => false }

example : commCreate Ctx.ordered 8 (.scal 2 (.atom 0)) (.scal 3 (.atom 1)) = .ok (.scal (-6) (.comm (.atom 1) (.atom 0))) := by kernel_rfl
/-- matrices on the first factor for symbols below 10, on the second factor for the others -/
def sampleVal (a : ℕ) : Matrix (Fin 2) (Fin 2) ℤ × Matrix (Fin 2) (Fin 2) ℤ :=
  if a < 10 then (!![0, 1; (a : ℤ), 2], 1) else (1, !![0, 1; (a : ℤ), 2])
example : SoundCtx Ctx.ordered sampleVal where
  sortPlus := fun _ => .refl _
  sortTimes := fun _ => rfl
  atomRule := fun _ _ _ h => by cases h
  ladder := fun _ _ h => by cases h
  disjoint := fun x y h => by
    cases x <;> cases y <;> simp [Ctx.ordered] at h
    rcases h with ⟨h1, h2⟩ | ⟨h1, h2⟩
    · simp [val, sampleVal, h2, Nat.not_lt.mpr h1]
    · simp [val, sampleVal, h2, Nat.not_lt.mpr h1]
example : commCreate Ctx.ordered 8 (.atom 0) (.atom 12) = .ok .zero := by kernel_rfl

end QNET.QAlg
