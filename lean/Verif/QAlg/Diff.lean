import Verif.QAlg.Thm30
import Mathlib.Algebra.Star.BigOperators
import Mathlib.Algebra.Star.Module
import Mathlib.Algebra.Star.Basic

/-! # C52, C53: `diff` and `adjoint` of sums, products and scalar multiples -/

namespace QNET.QAlg

open QNET.Perm (Res Err)
open QNET.Indexed (Except.bind_ok mapM_ok_cons mapM_ok_forall₂)

variable {K : Type} [CommRing K] [DecidableEq K] (Γ : Ctx K)

/-- how symbols and scalars depend on the differentiation symbol -/
structure DiffCtx (K : Type) where
  /-- `sym` is among the free symbols of symbol `a` -/
  atomDep : ℕ → Bool
  /-- `sym` is among the free symbols of the scalar `c` -/
  scalDep : K → Bool
  /-- the derivative of a symbol: zero, or a derivative object (abstract_quantum_algebra.py lines 358-363) -/
  atomDiff : ℕ → QX K
  /-- `coeff.diff(sym)` -/
  scalDiff : K → K

mutual
/-- `sym.free_symbols.issubset(self.free_symbols)`, abstract_quantum_algebra.py line 134 -/
def depends (Δ : DiffCtx K) : QX K → Bool
  | .atom a => Δ.atomDep a
  | .zero => false
  | .one => false
  | .scal c t => Δ.scalDep c || depends Δ t
  | .plus l => dependsL Δ l
  | .times l => dependsL Δ l
  | .comm a b => depends Δ a || depends Δ b
/-- some element depends on the symbol -/
def dependsL (Δ : DiffCtx K) : List (QX K) → Bool
  | [] => false
  | x :: l => depends Δ x || dependsL Δ l
end

/-- `_diff` of one level: Commutator operator_algebra.py lines 598-600 (direct instantiation), QuantumPlus lines 497-498 (`sum(..., _zero)`: repeated `+` starting from zero), QuantumTimes lines 548-552,
ScalarTimesQuantumExpression lines 629-631. `df` is the recursive call of `diff`. -/
def diffStep (Δ : DiffCtx K) (df : QX K → Res (QX K)) (n : ℕ) : QX K → Res (QX K)
  | .plus l => l.mapM df >>= fun ds => ds.foldlM (add Γ n) .zero
  | .times (x :: l) =>
    timesCreate Γ n l >>= fun rest => df x >>= fun dx => mul Γ n dx rest >>= fun a => df rest >>= fun dr => mul Γ n x dr >>= fun b => add Γ n a b
  | .times [] => .error .assertion
  | .scal c t => mulScal Γ n (Δ.scalDiff c) t >>= fun a => df t >>= fun dt => mulScal Γ n c dt >>= fun b => add Γ n a b
  | .comm a b => df a >>= fun da => df b >>= fun db => add Γ n (.comm da b) (.comm a db)
  | .atom a => .ok (Δ.atomDiff a)
  | .zero => .ok .zero
  | .one => .ok .zero

/-- `diff(sym)`, abstract_quantum_algebra.py lines 119-155: zero if the expression does not depend on the symbol, else `_diff` followed by
`expand()` (and `simplify_scalar`, which does not change values). -/
def diff (Δ : DiffCtx K) : ℕ → QX K → Res (QX K)
  | 0, _ => .error .recursion
  | n + 1, x =>
    if depends Δ x then diffStep Γ Δ (diff Δ n) n x >>= fun d => if d = .zero then .ok .zero else expand Γ n d
    else .ok .zero

section
variable {Γ} {A : Type} [Ring A] [Algebra K A] {ρ : ℕ → A}

/-- `δ` is a derivation of the algebra that describes how values of symbols and scalars change with the differentiation symbol -/
structure Derives (Δ : DiffCtx K) (ρ : ℕ → A) (δ : A → A) : Prop where
  add : ∀ a b, δ (a + b) = δ a + δ b
  mul : ∀ a b, δ (a * b) = δ a * b + a * δ b
  smul : ∀ (c : K) a, δ (c • a) = Δ.scalDiff c • a + c • δ a
  atom : ∀ a, val ρ (Δ.atomDiff a) = δ (ρ a)
  atomDep : ∀ a, Δ.atomDep a = false → δ (ρ a) = 0
  scalDep : ∀ c, Δ.scalDep c = false → Δ.scalDiff c = 0

variable {Δ : DiffCtx K} {δ : A → A}

theorem Derives.zero (h : Derives Δ ρ δ) : δ 0 = 0 := by
  have := h.add 0 0
  simpa using this

theorem Derives.one (h : Derives Δ ρ δ) : δ 1 = 0 := by
  have := h.mul 1 1
  simpa using this

theorem Derives.neg (h : Derives Δ ρ δ) (a : A) : δ (-a) = - δ a := by
  have := h.add a (-a)
  rw [add_neg_cancel, h.zero] at this
  exact (neg_eq_of_add_eq_zero_right this.symm).symm

theorem Derives.sub (h : Derives Δ ρ δ) (a b : A) : δ (a - b) = δ a - δ b := by
  rw [sub_eq_add_neg, h.add, h.neg, sub_eq_add_neg]

mutual
theorem not_depends (h : Derives Δ ρ δ) : ∀ x : QX K, depends Δ x = false → δ (val ρ x) = 0
  | .atom a, hx => by simpa [val] using h.atomDep a (by simpa [depends] using hx)
  | .zero, _ => by simp [val, h.zero]
  | .one, _ => by simp [val, h.one]
  | .scal c t, hx => by
    simp only [depends, Bool.or_eq_false_iff] at hx
    simp [val, h.smul, h.scalDep c hx.1, not_depends h t hx.2]
  | .plus l, hx => by
    rw [depends] at hx
    simp [val, (not_dependsL h l hx).1]
  | .times l, hx => by
    rw [depends] at hx
    simp [val, (not_dependsL h l hx).2]
  | .comm a b, hx => by
    simp only [depends, Bool.or_eq_false_iff] at hx
    simp [val, h.sub, h.mul, not_depends h a hx.1, not_depends h b hx.2]
theorem not_dependsL (h : Derives Δ ρ δ) : ∀ l : List (QX K), dependsL Δ l = false → δ (vals ρ l).sum = 0 ∧ δ (vals ρ l).prod = 0
  | [], _ => by simp [vals, h.zero, h.one]
  | x :: l, hx => by
    simp only [dependsL, Bool.or_eq_false_iff] at hx
    have h1 := not_depends h x hx.1
    have h2 := not_dependsL h l hx.2
    simp [vals, h.add, h.mul, h1, h2.1, h2.2]
end

theorem foldlM_add_val (hΓ : SoundCtx Γ ρ) {n : ℕ} : ∀ {l : List (QX K)} {z r : QX K}, l.foldlM (add Γ n) z = .ok r →
    val ρ r = val ρ z + (l.map (val ρ)).sum := by
  intro l
  induction l with
  | nil => intro z r h; cases h; simp
  | cons x l ih =>
    intro z r h
    rw [List.foldlM_cons] at h
    obtain ⟨w, h1, h2⟩ := Except.bind_ok h
    rw [ih h2, (C30_arithmetic (c := (0 : K)) hΓ).2.1 h1, List.map_cons, List.sum_cons, add_assoc]

/-- C52: the derivative computed by `diff(sym)` denotes the derivative of what the expression denotes: for every derivation `δ` of any
algebra that describes the dependence of symbols and scalars on `sym`. -/
theorem C52_diff (hΓ : SoundCtx Γ ρ) (h : Derives Δ ρ δ) : ∀ (n : ℕ) (x r : QX K), diff Γ Δ n x = .ok r → val ρ r = δ (val ρ x) := by
  intro n
  induction n with
  | zero => intro x r hr; cases hr
  | succ n ih =>
    intro x r hr
    rw [diff] at hr
    split at hr
    · obtain ⟨d, h1, h2⟩ := Except.bind_ok hr
      have hd : val ρ r = val ρ d := by
        split at h2
        · rename_i e; cases h2; rw [e]
        · exact C30_value hΓ h2
      rw [hd]
      have hc := fun {x y r : QX K} {c : K} => C30_arithmetic (n := n) (x := x) (y := y) (r := r) (c := c) hΓ
      cases x with
      | plus l =>
        obtain ⟨ds, h3, h4⟩ := Except.bind_ok h1
        rw [foldlM_add_val hΓ h4, (val_linear ρ).zero, zero_add, forall₂_map_eq (mapM_ok_forall₂ h3) (f := fun x => δ (val ρ x)) (fun a b hab => ih _ _ hab),
          (val_linear ρ).plus]
        have : ∀ l : List A, δ l.sum = (l.map δ).sum := by
          intro l
          induction l with
          | nil => simp [h.zero]
          | cons a l ihl => simp [h.add, ihl]
        rw [this, List.map_map]
        rfl
      | times l =>
        match l, h1 with
        | y :: l, h1 =>
          obtain ⟨rest, e1, h1⟩ := Except.bind_ok h1
          obtain ⟨dx, e2, h1⟩ := Except.bind_ok h1
          obtain ⟨a, e3, h1⟩ := Except.bind_ok h1
          obtain ⟨dr, e4, h1⟩ := Except.bind_ok h1
          obtain ⟨b, e5, h1⟩ := Except.bind_ok h1
          rw [(hc (c := 0)).2.1 h1, (hc (c := 0)).1 e3, (hc (c := 0)).1 e5, ih _ _ e2, ih _ _ e4, (times_sound hΓ n).1 _ _ e1, val_times, List.map_cons,
            List.prod_cons, h.mul]
      | scal c t =>
        obtain ⟨a, e1, h1⟩ := Except.bind_ok h1
        obtain ⟨dt, e2, h1⟩ := Except.bind_ok h1
        obtain ⟨b, e3, h1⟩ := Except.bind_ok h1
        rw [(hc (c := 0)).2.1 h1, (hc (y := t)).2.2 e1, (hc (y := t)).2.2 e3, ih _ _ e2, val, h.smul]
      | comm a b =>
        obtain ⟨da, e1, h1⟩ := Except.bind_ok h1
        obtain ⟨db, e2, h1⟩ := Except.bind_ok h1
        rw [(hc (c := 0)).2.1 h1]
        simp only [val, ih _ _ e1, ih _ _ e2, h.sub, h.mul]
        abel
      | atom a => cases h1; simpa [val] using h.atom a
      | zero => cases h1; simp [val, h.zero]
      | one => cases h1; simp [val, h.zero, h.one]
    · rename_i hx
      cases hr
      rw [not_depends h x (by simpa using hx)]
      simp [val]

end

/-- `d/dx (2 * A(x) * B * A(x))` with `A' = C` (symbols 0, 1, 2), `B` constant -/
def sampleDiff : DiffCtx ℤ := ⟨fun a => a == 0, fun _ => false, fun a => if a = 0 then .atom 2 else .zero, fun _ => 0⟩
example : diff (Ctx.plain ℤ) sampleDiff 14 (.scal 2 (.times [.atom 0, .atom 1, .atom 0]))
    = .ok (.plus [.scal 2 (.times [.atom 2, .atom 1, .atom 0]), .scal 2 (.times [.atom 0, .atom 1, .atom 2])]) := by kernel_rfl

/-! ## Adjoint -/

/-- `adjoint()`: QuantumPlus lines 500-501 and ScalarTimesOperator (operator_algebra.py lines 517-518) instantiate directly, QuantumTimes
lines 554-556 and Commutator (operator_algebra.py lines 602-603, direct instantiation): QuantumTimes uses `create` with the reversed adjoint factors; zero and one are self-adjoint; `adj a` is the adjoint of a symbol
(lines 391-392, 444-475), `conj` is the conjugation of scalars. -/
def adjointStep (adj : ℕ → QX K) (conj : K → K) (ad : QX K → Res (QX K)) (n : ℕ) : QX K → Res (QX K)
  | .atom a => .ok (adj a)
  | .zero => .ok .zero
  | .one => .ok .one
  | .scal c t => (ad t).map (.scal (conj c))
  | .plus l => (l.mapM ad).map .plus
  | .times l => l.reverse.mapM ad >>= timesCreate Γ n
  | .comm a b => ad b >>= fun b' => ad a >>= fun a' => .ok (.comm b' a')

/-- `adjoint()` with a recursion depth, abstract_quantum_algebra.py lines 95-105 -/
def adjoint (adj : ℕ → QX K) (conj : K → K) : ℕ → QX K → Res (QX K)
  | 0, _ => .error .recursion
  | n + 1, x => adjointStep Γ adj conj (adjoint adj conj n) n x

/-- C53: the adjoint of an expression denotes the adjoint of what the expression denotes, in every *-algebra. -/
theorem C53_adjoint {Γ : Ctx K} [StarRing K] {A : Type} [Ring A] [StarRing A] [Algebra K A] [StarModule K A] {ρ : ℕ → A} (hΓ : SoundCtx Γ ρ)
    {adj : ℕ → QX K} (hadj : ∀ a, val ρ (adj a) = star (ρ a)) :
    ∀ (n : ℕ) (x r : QX K), adjoint Γ adj star n x = .ok r → val ρ r = star (val ρ x) := by
  intro n
  induction n with
  | zero => intro x r h; cases h
  | succ n ih =>
    intro x r h
    rw [adjoint] at h
    cases x with
    | atom a => cases h; simpa [val] using hadj a
    | zero => cases h; simp [val]
    | one => cases h; simp [val]
    | scal c t =>
      obtain ⟨t', h1, rfl⟩ := QNET.Indexed.Except.map_ok h
      simp [val, ih _ _ h1]
    | plus l =>
      obtain ⟨l', h1, rfl⟩ := QNET.Indexed.Except.map_ok h
      rw [(val_linear ρ).plus, (val_linear ρ).plus, forall₂_map_eq (mapM_ok_forall₂ h1) (f := fun x => star (val ρ x)) (fun a b hab => ih _ _ hab)]
      have : ∀ l : List A, star l.sum = (l.map star).sum := by
        intro l
        induction l with
        | nil => simp
        | cons a l ihl => simp [ihl]
      rw [this, List.map_map]
      rfl
    | comm a b =>
      obtain ⟨b', h1, h⟩ := Except.bind_ok h
      obtain ⟨a', h2, h⟩ := Except.bind_ok h
      cases h
      simp only [val, ih _ _ h1, ih _ _ h2, star_sub, star_mul]
    | times l =>
      obtain ⟨l', h1, h2⟩ := Except.bind_ok h
      rw [(times_sound hΓ n).1 _ _ h2, val_times, forall₂_map_eq (mapM_ok_forall₂ h1) (f := fun x => star (val ρ x)) (fun a b hab => ih _ _ hab)]
      have : ∀ l : List A, star l.prod = (l.map star).reverse.prod := by
        intro l
        induction l with
        | nil => simp
        | cons a l ihl => simp [ihl]
      rw [this, List.map_map, ← List.map_reverse]
      rfl

example : adjoint (Ctx.plain ℤ) (fun a => .atom (a + 10)) id 8 (.scal 2 (.times [.atom 0, .plus [.one, .atom 1], .atom 2]))
    = .ok (.scal 2 (.times [.atom 12, .plus [.one, .atom 11], .atom 10])) := by kernel_rfl

end QNET.QAlg
