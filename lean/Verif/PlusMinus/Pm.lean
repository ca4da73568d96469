import Verif.Engine.Model
import Verif.Engine.Lemmas
import Verif.Indexed.Sem
import Mathlib.Algebra.Star.Module
import Mathlib.Algebra.Star.Basic
import Mathlib.Algebra.Algebra.Defs
import Mathlib.Algebra.BigOperators.Group.List.Basic
import Mathlib.Algebra.Group.TypeTags.Basic
import Mathlib.Algebra.Star.BigOperators
import Mathlib.Tactic.Abel
import Mathlib.Data.Complex.Basic

/-!
# C98: sums with Hermitian conjugates (`OperatorPlusMinusCC`, `rewrite_with_operator_pm_cc`)

`src/qnet/algebra/core/operator_algebra.py` lines 689-734 (the class) and 957-1009 (the rewriting: the rules of `OperatorPlus` are replaced by PM1-PM3 and
the expression is rebuilt).

Simplifications: expressions are symbols, zero, one, scalar multiples, sums, products, adjoints and `OperatorPlusMinusCC`. Scalars are elements of a
commutative ring with decidable equality. `OperatorTimes.create`, `ScalarTimesOperator.create`, `Adjoint.create` and the method `adjoint()` are parameters
that preserve values (for products and multiples see C30); the sum constructor is modelled.
-/

namespace QNET.Pm

open QNET.Perm (Res Err)

/-! ## the code -/

/-- expressions; `pm true A` is `OperatorPlusMinusCC(A, sign=+1)` -/
inductive X (K : Type) where
  | atom (a : ℕ)
  | zero
  | one
  | scal (c : K) (t : X K)
  | plus (l : List (X K))
  | times (l : List (X K))
  | adj (t : X K)
  | pm (s : Bool) (t : X K)

variable {K : Type}

/-- the constructors and methods that are not modelled here -/
structure Ctx (K : Type) where
  /-- `==` of expressions -/
  eq : X K → X K → Bool
  /-- `orderby` with `FullCommutativeHSOrder` -/
  sort : List (X K) → List (X K)
  /-- `coeff * term` -/
  ms : K → X K → Res (X K)
  /-- `OperatorTimes.create` -/
  tc : List (X K) → Res (X K)
  /-- `Adjoint.create` -/
  ac : X K → Res (X K)
  /-- `adjoint()` -/
  adjoint : X K → Res (X K)
  /-- equality of scalars -/
  eqK : K → K → Bool

/-- operands of a sum (`isinstance(o, cls)` in `assoc`, algebraic_properties.py lines 44-54) -/
def flatPlus : X K → Option (List (X K))
  | .plus l => some l
  | _ => none

/-- is `ZeroOperator` -/
def isZero : X K → Bool
  | .zero => true
  | _ => false

variable [CommRing K] (Γ : Ctx K)

/-- `coeff, term` of a summand, algebraic_properties.py lines 165-169 -/
def split : X K → X K × K
  | .scal c t => (t, c)
  | t => (t, 1)

/-- one update of `coeff_map`, algebraic_properties.py lines 170-173 -/
def addTerm : List (X K × K) → X K → K → List (X K × K)
  | [], t, c => [(t, c)]
  | (t', c') :: m, t, c => if Γ.eq t' t then (t', c' + c) :: m else (t', c') :: addTerm m t c

/-- `coeff_map` after the loop, algebraic_properties.py lines 163-173 -/
def coeffMap (ops : List (X K)) : List (X K × K) := ops.foldl (fun m op => addTerm Γ m (split op).1 (split op).2) []

/-- `[f(a) for a in l]` -/
def mapR {α β : Type} (f : α → Res β) : List α → Res (List β)
  | [] => .ok []
  | a :: l => f a >>= fun b => mapR f l >>= fun bs => .ok (b :: bs)

/-- `_scal_combine_operator_pm_cc` (rule PM3), lines 984-990; `none` for `CannotSimplify` or no match -/
def pm3 (x y : X K) : Res (Option (X K)) :=
  match x, y with
  | .scal c A, .scal d B =>
    Γ.adjoint B >>= fun B' =>
    if Γ.eq B' A then
      if Γ.eqK c d then Γ.ms c (.pm true A) >>= fun r => .ok (some r)
      else if Γ.eqK c (-d) then Γ.ms c (.pm false A) >>= fun r => .ok (some r)
      else .ok none
    else .ok none
  | _, _ => .ok none

/-- `_combine_operator_m_cc` (rule PM2), lines 978-982 with the pattern in lines 1000-1003, then PM3 -/
def pm2 (x y : X K) : Res (Option (X K)) :=
  match x with
  | .scal c B =>
    if Γ.eqK c (-1) then Γ.adjoint B >>= fun B' => if Γ.eq B' y then .ok (some (.pm false y)) else pm3 Γ x y
    else pm3 Γ x y
  | _ => pm3 Γ x y

/-- `_combine_operator_p_cc` (rule PM1), lines 972-976, then PM2, PM3 -/
def pmRule (x y : X K) : Res (Option (X K)) :=
  Γ.adjoint y >>= fun y' => if Γ.eq y' x then .ok (some (.pm true x)) else pm2 Γ x y

/-- the rules of `OperatorPlus` outside of the rewriting: none -/
def noRule (_ _ : X K) : Res (Option (X K)) := .ok none

/-- `OperatorPlus.create(*ops)` with `simplifications = [assoc, scalars_to_op, orderby, collect_summands, match_replace_binary]`
(operator_algebra.py lines 463-464; `collect_summands` algebraic_properties.py lines 147-184) -/
def plusCreate (rule : X K → X K → Res (Option (X K))) (n : ℕ) (ops : List (X K)) : Res (X K) :=
  mapR (fun tc => Γ.ms tc.2 tc.1) (coeffMap Γ (Γ.sort (Engine.assoc flatPlus ops))) >>= fun fops =>
  match fops.filter (fun x => !isZero x) with
  | [] => .ok .zero
  | [x] => .ok x
  | l =>
    Engine.matchReplaceBinary rule .zero isZero flatPlus n l >>= fun
    | .single x => .ok x
    | .operands l => .ok (.plus l)

mutual
/-- `expr.rebuild()`, abstract_algebra.py lines 602-609: the operands are rebuilt, then the class's `create` is called (operator_algebra.py line 1009) -/
def rebuild (rule : X K → X K → Res (Option (X K))) (n : ℕ) : X K → Res (X K)
  | .atom a => .ok (.atom a)
  | .zero => .ok .zero
  | .one => .ok .one
  | .scal c t => rebuild rule n t >>= Γ.ms c
  | .plus l => rebuildL rule n l >>= plusCreate Γ rule n
  | .times l => rebuildL rule n l >>= Γ.tc
  | .adj t => rebuild rule n t >>= Γ.ac
  | .pm s t => rebuild rule n t >>= fun t' => .ok (.pm s t')
/-- the operands -/
def rebuildL (rule : X K → X K → Res (Option (X K))) (n : ℕ) : List (X K) → Res (List (X K))
  | [] => .ok []
  | x :: l => rebuild rule n x >>= fun y => rebuildL rule n l >>= fun ys => .ok (y :: ys)
end

/-- `rewrite_with_operator_pm_cc(expr)`, lines 957-1009 -/
def rewrite (n : ℕ) (x : X K) : Res (X K) := rebuild Γ (pmRule Γ) n x

mutual
/-- `doit()`: the operands first, then `OperatorPlusMinusCC._doit`, lines 730-734 -/
def doit (n : ℕ) : X K → Res (X K)
  | .atom a => .ok (.atom a)
  | .zero => .ok .zero
  | .one => .ok .one
  | .scal c t => doit n t >>= Γ.ms c
  | .plus l => doitL n l >>= plusCreate Γ noRule n
  | .times l => doitL n l >>= Γ.tc
  | .adj t => doit n t >>= Γ.ac
  | .pm s t =>
    doit n t >>= fun t' => Γ.adjoint t' >>= fun a =>
    if s then plusCreate Γ noRule n [t', a] else Γ.ms (-1) a >>= fun b => plusCreate Γ noRule n [t', b]
/-- the operands -/
def doitL (n : ℕ) : List (X K) → Res (List (X K))
  | [] => .ok []
  | x :: l => doit n x >>= fun y => doitL n l >>= fun ys => .ok (y :: ys)
end

/-- `OperatorPlusMinusCC._adjoint`, lines 714-715 -/
def pmAdjoint (s : Bool) (t : X K) : Res (X K) := Γ.adjoint t >>= fun a => .ok (.pm s a)

/-! ## specification -/

variable {A : Type} [Ring A] [StarRing A] [Algebra K A]

omit [StarRing A] in
variable (ρ : ℕ → A) in
mutual
/-- the operator an expression denotes, from the operators its symbols denote; `pm true t` is `t` plus its adjoint -/
def val [StarRing A] : X K → A
  | .atom a => ρ a
  | .zero => 0
  | .one => 1
  | .scal c t => c • val t
  | .plus l => valSum l
  | .times l => valProd l
  | .adj t => star (val t)
  | .pm true t => val t + star (val t)
  | .pm false t => val t - star (val t)
/-- sums -/
def valSum [StarRing A] : List (X K) → A
  | [] => 0
  | x :: l => val x + valSum l
/-- products -/
def valProd [StarRing A] : List (X K) → A
  | [] => 1
  | x :: l => val x * valProd l
end

variable (ρ : ℕ → A)

/-- what is required of the constructors and methods that are not modelled: they preserve values, `==` compares structurally -/
structure Ctx.Sound : Prop where
  eq : ∀ x y, Γ.eq x y = true → x = y
  eqK : ∀ c d, Γ.eqK c d = true → c = d
  sort : ∀ l, (Γ.sort l).Perm l
  ms : ∀ c t r, Γ.ms c t = .ok r → val ρ r = c • val ρ t
  tc : ∀ l r, Γ.tc l = .ok r → val ρ r = valProd ρ l
  ac : ∀ t r, Γ.ac t = .ok r → val ρ r = star (val ρ t)
  adjoint : ∀ t r, Γ.adjoint t = .ok r → val ρ r = star (val ρ t)

/-! ## proofs -/

variable {Γ} {ρ}

open QNET.Indexed (Except.bind_ok)

theorem valSum_map : ∀ l : List (X K), valSum ρ l = (l.map (val ρ)).sum
  | [] => by simp [valSum]
  | x :: l => by simp [valSum, valSum_map l]

theorem split_val (x : X K) : (split x).2 • val ρ (split x).1 = val ρ x := by
  cases x <;> simp [split, val]

/-- the value of a coefficient map -/
def mapVal (ρ : ℕ → A) (m : List (X K × K)) : A := (m.map (fun tc => tc.2 • val ρ tc.1)).sum

theorem addTerm_val (hΓ : Γ.Sound ρ) (m : List (X K × K)) (t : X K) (c : K) : mapVal ρ (addTerm Γ m t c) = mapVal ρ m + c • val ρ t := by
  induction m with
  | nil => simp [mapVal, addTerm]
  | cons p m ih =>
    obtain ⟨t', c'⟩ := p
    unfold addTerm
    split
    · rename_i h
      have := hΓ.eq _ _ h
      subst this
      simp only [mapVal, List.map_cons, List.sum_cons, add_smul]
      abel
    · simp only [mapVal, List.map_cons, List.sum_cons] at ih ⊢
      rw [ih, add_assoc]

theorem foldl_val (hΓ : Γ.Sound ρ) (ops : List (X K)) : ∀ m : List (X K × K),
    mapVal ρ (ops.foldl (fun m op => addTerm Γ m (split op).1 (split op).2) m) = mapVal ρ m + (ops.map (val ρ)).sum := by
  induction ops with
  | nil => intro m; simp
  | cons x l ih =>
    intro m
    rw [List.foldl_cons, ih, addTerm_val hΓ, split_val, List.map_cons, List.sum_cons, add_assoc]

theorem assoc_val (ops : List (X K)) : ((Engine.assoc flatPlus ops).map (val ρ)).sum = (ops.map (val ρ)).sum := by
  induction ops with
  | nil => rfl
  | cons x l ih =>
    simp only [Engine.assoc, List.flatMap_cons, List.map_append, List.sum_append, List.map_cons, List.sum_cons] at ih ⊢
    rw [ih]
    congr 1
    cases x <;> simp [flatPlus, val, valSum_map]

theorem filter_val (l : List (X K)) : ((l.filter (fun x => !isZero x)).map (val ρ)).sum = (l.map (val ρ)).sum := by
  induction l with
  | nil => rfl
  | cons x l ih =>
    have ih' := ih
    cases x <;> rw [List.filter_cons] <;> first
      | (rw [if_pos (by rfl), List.map_cons, List.map_cons, List.sum_cons, List.sum_cons, ih'])
      | (rw [if_neg (by simp [isZero]), List.map_cons, List.sum_cons, ih']; simp [val])

theorem mapR_val (hΓ : Γ.Sound ρ) : ∀ (m : List (X K × K)) (r : List (X K)), mapR (fun tc => Γ.ms tc.2 tc.1) m = .ok r →
    (r.map (val ρ)).sum = mapVal ρ m
  | [], r, h => by injection h with h; subst h; rfl
  | p :: m, r, h => by
    simp only [mapR] at h
    obtain ⟨b, h1, h⟩ := Except.bind_ok h
    obtain ⟨bs, h2, h⟩ := Except.bind_ok h
    injection h with h
    subst h
    have := mapR_val hΓ m bs h2
    simp only [List.map_cons, List.sum_cons, this, mapVal, hΓ.ms _ _ _ h1]

/-- values, for the reduction engine -/
def VV (ρ : ℕ → A) (x : X K) (m : Multiplicative A) : Prop := m = Multiplicative.ofAdd (val ρ x)

theorem prod_VV : ∀ (l : List (X K)) (m : Multiplicative A), Engine.Prod (VV ρ) l m ↔ m = Multiplicative.ofAdd (l.map (val ρ)).sum
  | [], m => by simp [Engine.prod_nil_iff]
  | x :: l, m => by
    rw [Engine.prod_cons_iff]
    simp only [prod_VV l, List.map_cons, List.sum_cons, ofAdd_add]
    constructor
    · rintro ⟨a, b, h1, h2, rfl⟩; rw [h1, h2]
    · rintro rfl; exact ⟨_, _, rfl, rfl, rfl⟩

/-- a rule replaces two summands by their sum -/
def RuleOk (ρ : ℕ → A) (rule : X K → X K → Res (Option (X K))) : Prop :=
  ∀ x y r, rule x y = .ok (some r) → val ρ r = val ρ x + val ρ y

theorem engine_sound {rule : X K → X K → Res (Option (X K))} (hr : RuleOk ρ rule) : Engine.Sound (VV ρ) rule isZero flatPlus where
  rule := by
    rintro x y r a b rfl rfl h
    simp only [VV, hr x y r h, ofAdd_add]
  neutral := by
    intro r a h ha
    cases r <;> simp [isZero] at h
    simp only [VV, val] at ha
    rw [ha]; rfl
  flat := by
    intro r l a h ha
    cases r <;> simp [flatPlus] at h
    subst h
    rw [prod_VV]
    simp only [VV, val, valSum_map] at ha
    exact ha

theorem pm3_ok (hΓ : Γ.Sound ρ) : RuleOk ρ (pm3 Γ) := by
  intro x y r h
  unfold pm3 at h
  split at h
  · rename_i c P d Q
    obtain ⟨B', h1, h0⟩ := Except.bind_ok h
    clear h
    rename' h0 => h
    split at h
    · rename_i he
      have hB := hΓ.eq _ _ he
      have hv := hΓ.adjoint _ _ h1
      rw [hB] at hv
      have hQ : val ρ Q = star (val ρ P) := by rw [hv, star_star]
      split at h
      · rename_i hc
        have := hΓ.eqK _ _ hc
        subst this
        obtain ⟨s, h2, h⟩ := Except.bind_ok h
        simp only [Except.ok.injEq, Option.some.injEq] at h; subst h
        rw [hΓ.ms _ _ _ h2]
        simp only [val, hQ, smul_add]
      · split at h
        · rename_i hc
          have := hΓ.eqK _ _ hc
          subst this
          obtain ⟨s, h2, h⟩ := Except.bind_ok h
          simp only [Except.ok.injEq, Option.some.injEq] at h; subst h
          rw [hΓ.ms _ _ _ h2]
          simp only [val, hQ, smul_sub, neg_smul]
          abel
        · cases h
    · cases h
  · cases h

theorem pm2_ok (hΓ : Γ.Sound ρ) : RuleOk ρ (pm2 Γ) := by
  intro x y r h
  unfold pm2 at h
  split at h
  · rename_i c P
    split at h
    · rename_i hc
      have := hΓ.eqK _ _ hc
      subst this
      obtain ⟨B', h1, h⟩ := Except.bind_ok h
      split at h
      · rename_i he
        have hB := hΓ.eq _ _ he
        subst hB
        simp only [Except.ok.injEq, Option.some.injEq] at h; subst h
        simp only [val, hΓ.adjoint _ _ h1, star_star, neg_smul, one_smul]
        abel
      · exact pm3_ok hΓ _ _ _ h
    · exact pm3_ok hΓ _ _ _ h
  · exact pm3_ok hΓ _ _ _ h

theorem pmRule_ok (hΓ : Γ.Sound ρ) : RuleOk ρ (pmRule Γ) := by
  intro x y r h
  unfold pmRule at h
  obtain ⟨y', h1, h⟩ := Except.bind_ok h
  split at h
  · rename_i he
    have hB := hΓ.eq _ _ he
    subst hB
    simp only [Except.ok.injEq, Option.some.injEq] at h; subst h
    simp only [val, hΓ.adjoint _ _ h1, star_star]
  · exact pm2_ok hΓ _ _ _ h

theorem noRule_ok : RuleOk (K := K) ρ noRule := by intro x y r h; cases h

theorem plusCreate_val (hΓ : Γ.Sound ρ) {rule : X K → X K → Res (Option (X K))} (hr : RuleOk ρ rule) {n : ℕ} {ops : List (X K)} {r : X K}
    (h : plusCreate Γ rule n ops = .ok r) : val ρ r = (ops.map (val ρ)).sum := by
  unfold plusCreate at h
  obtain ⟨fops, h1, h⟩ := Except.bind_ok h
  have e : ((fops.filter (fun x => !isZero x)).map (val ρ)).sum = (ops.map (val ρ)).sum := by
    rw [filter_val, mapR_val hΓ _ _ h1, coeffMap, foldl_val hΓ, ← assoc_val ops, ((hΓ.sort _).map (val ρ)).sum_eq]
    simp [mapVal]
  rw [← e]
  revert h
  generalize fops.filter (fun x => !isZero x) = l
  intro h
  match l, h with
  | [], h => injection h with h; subst h; simp [val]
  | [x], h => injection h with h; subst h; simp
  | x :: y :: l, h =>
    simp only at h
    obtain ⟨o, h2, h⟩ := Except.bind_ok h
    have := Engine.matchReplaceBinary_sound (engine_sound hr) (ne := .zero) (by simp [VV, val]) ((prod_VV (x :: y :: l) _).mpr rfl) h2
    cases o with
    | single z =>
      injection h with h
      subst h
      exact (Multiplicative.ofAdd.injective this).symm
    | operands l' =>
      injection h with h
      subst h
      rw [val, valSum_map]
      exact (Multiplicative.ofAdd.injective ((prod_VV l' _).mp this)).symm

mutual
theorem rebuild_val (hΓ : Γ.Sound ρ) {rule : X K → X K → Res (Option (X K))} (hr : RuleOk ρ rule) (n : ℕ) :
    ∀ (x r : X K), rebuild Γ rule n x = .ok r → val ρ r = val ρ x
  | .atom a, r, h => by simp only [rebuild] at h; injection h with h; subst h; rfl
  | .zero, r, h => by simp only [rebuild] at h; injection h with h; subst h; rfl
  | .one, r, h => by simp only [rebuild] at h; injection h with h; subst h; rfl
  | .scal c t, r, h => by
    simp only [rebuild] at h
    obtain ⟨t', h1, h⟩ := Except.bind_ok h
    rw [hΓ.ms _ _ _ h, rebuild_val hΓ hr n t t' h1, val]
  | .plus l, r, h => by
    simp only [rebuild] at h
    obtain ⟨l', h1, h⟩ := Except.bind_ok h
    rw [plusCreate_val hΓ hr h, ← valSum_map, (rebuildL_val hΓ hr n l l' h1).1, val]
  | .times l, r, h => by
    simp only [rebuild] at h
    obtain ⟨l', h1, h⟩ := Except.bind_ok h
    rw [hΓ.tc _ _ h, (rebuildL_val hΓ hr n l l' h1).2, val]
  | .adj t, r, h => by
    simp only [rebuild] at h
    obtain ⟨t', h1, h⟩ := Except.bind_ok h
    rw [hΓ.ac _ _ h, rebuild_val hΓ hr n t t' h1, val]
  | .pm s t, r, h => by
    simp only [rebuild] at h
    obtain ⟨t', h1, h⟩ := Except.bind_ok h
    injection h with h
    subst h
    have := rebuild_val hΓ hr n t t' h1
    cases s <;> simp only [val, this]
theorem rebuildL_val (hΓ : Γ.Sound ρ) {rule : X K → X K → Res (Option (X K))} (hr : RuleOk ρ rule) (n : ℕ) :
    ∀ (l r : List (X K)), rebuildL Γ rule n l = .ok r → valSum ρ r = valSum ρ l ∧ valProd ρ r = valProd ρ l
  | [], r, h => by simp only [rebuildL] at h; injection h with h; subst h; exact ⟨rfl, rfl⟩
  | x :: l, r, h => by
    simp only [rebuildL] at h
    obtain ⟨y, h1, h⟩ := Except.bind_ok h
    obtain ⟨ys, h2, h⟩ := Except.bind_ok h
    injection h with h
    subst h
    have a := rebuild_val hΓ hr n x y h1
    have b := rebuildL_val hΓ hr n l ys h2
    simp only [valSum, valProd, a, b.1, b.2, and_self]
end

mutual
theorem doit_val (hΓ : Γ.Sound ρ) (n : ℕ) : ∀ (x r : X K), doit Γ n x = .ok r → val ρ r = val ρ x
  | .atom a, r, h => by simp only [doit] at h; injection h with h; subst h; rfl
  | .zero, r, h => by simp only [doit] at h; injection h with h; subst h; rfl
  | .one, r, h => by simp only [doit] at h; injection h with h; subst h; rfl
  | .scal c t, r, h => by
    simp only [doit] at h
    obtain ⟨t', h1, h⟩ := Except.bind_ok h
    rw [hΓ.ms _ _ _ h, doit_val hΓ n t t' h1, val]
  | .plus l, r, h => by
    simp only [doit] at h
    obtain ⟨l', h1, h⟩ := Except.bind_ok h
    rw [plusCreate_val hΓ noRule_ok h, ← valSum_map, (doitL_val hΓ n l l' h1).1, val]
  | .times l, r, h => by
    simp only [doit] at h
    obtain ⟨l', h1, h⟩ := Except.bind_ok h
    rw [hΓ.tc _ _ h, (doitL_val hΓ n l l' h1).2, val]
  | .adj t, r, h => by
    simp only [doit] at h
    obtain ⟨t', h1, h⟩ := Except.bind_ok h
    rw [hΓ.ac _ _ h, doit_val hΓ n t t' h1, val]
  | .pm s t, r, h => by
    simp only [doit] at h
    obtain ⟨t', h1, h⟩ := Except.bind_ok h
    obtain ⟨a, h2, h⟩ := Except.bind_ok h
    have e1 := doit_val hΓ n t t' h1
    have e2 := hΓ.adjoint _ _ h2
    cases s with
    | true =>
      simp only [if_true] at h
      rw [plusCreate_val hΓ noRule_ok h]
      simp [val, e1, e2]
    | false =>
      simp only [Bool.false_eq_true, if_false] at h
      obtain ⟨b, h3, h⟩ := Except.bind_ok h
      rw [plusCreate_val hΓ noRule_ok h]
      simp [val, hΓ.ms _ _ _ h3, e1, e2, sub_eq_add_neg]
theorem doitL_val (hΓ : Γ.Sound ρ) (n : ℕ) : ∀ (l r : List (X K)), doitL Γ n l = .ok r → valSum ρ r = valSum ρ l ∧ valProd ρ r = valProd ρ l
  | [], r, h => by simp only [doitL] at h; injection h with h; subst h; exact ⟨rfl, rfl⟩
  | x :: l, r, h => by
    simp only [doitL] at h
    obtain ⟨y, h1, h⟩ := Except.bind_ok h
    obtain ⟨ys, h2, h⟩ := Except.bind_ok h
    injection h with h
    subst h
    have a := doit_val hΓ n x y h1
    have b := doitL_val hΓ n l ys h2
    simp only [valSum, valProd, a, b.1, b.2, and_self]
end

/-! ## results -/

/-- **C98**: rewriting with `OperatorPlusMinusCC` does not change the operator an expression denotes, in every star algebra. -/
theorem C98_rewrite (hΓ : Γ.Sound ρ) (n : ℕ) (x r : X K) (h : rewrite Γ n x = .ok r) : val ρ r = val ρ x :=
  rebuild_val hΓ (pmRule_ok hΓ) n x r h

/-- **C98**: nor does writing out the conjugates again, and both together lead back to the same operator. -/
theorem C98_doit (hΓ : Γ.Sound ρ) (n m : ℕ) (x r s : X K) (h : rewrite Γ n x = .ok r) (h' : doit Γ m r = .ok s) :
    val ρ s = val ρ r ∧ val ρ s = val ρ x := by
  have := doit_val hΓ m r s h'
  exact ⟨this, this.trans (C98_rewrite hΓ n x r h)⟩

/-- **C98**: the adjoint of `OperatorPlusMinusCC` denotes the adjoint: `A + A^dagger` is self-adjoint, `A - A^dagger` anti-self-adjoint. -/
theorem C98_adjoint (hΓ : Γ.Sound ρ) (s : Bool) (t r : X K) (h : pmAdjoint Γ s t = .ok r) :
    val ρ r = star (val ρ (.pm s t)) ∧ val ρ r = (if s then val ρ (.pm s t) else - val ρ (.pm s t)) := by
  obtain ⟨a, h1, h⟩ := Except.bind_ok h
  injection h with h
  subst h
  have := hΓ.adjoint _ _ h1
  cases s with
  | true => simp [val, this, add_comm]
  | false => simp [val, this]

/-- **C98**: two summands that are adjoint to each other are found: if after ordering and collecting exactly `x` and `y` are left and
`y.adjoint() == x`, then the sum becomes `OperatorPlusMinusCC(x)`. -/
theorem C98_found (heq : ∀ x, Γ.eq x x = true) (n : ℕ) (ops : List (X K)) (x y : X K) (hx : isZero x = false) (hy : isZero y = false)
    (hc : mapR (fun tc => Γ.ms tc.2 tc.1) (coeffMap Γ (Γ.sort (Engine.assoc flatPlus ops))) = .ok [x, y]) (ha : Γ.adjoint y = .ok x) :
    plusCreate Γ (pmRule Γ) (n + 3) ops = .ok (.pm true x) := by
  have hrule : pmRule Γ x y = .ok (some (.pm true x)) := by
    simp only [pmRule, ha]
    change (if Γ.eq x x = true then _ else _) = _
    rw [if_pos (heq x)]
  have hm : Engine.matchReplaceBinary (pmRule Γ) .zero isZero flatPlus (n + 3) [x, y] = .ok (.single (.pm true x)) := by
    simp [Engine.matchReplaceBinary, Engine.reduce, Engine.combine, hrule, isZero, flatPlus]
  unfold plusCreate
  rw [hc]
  change (match [x, y].filter (fun x => !isZero x) with | [] => _ | [x] => _ | l => _) = _
  have : [x, y].filter (fun x => !isZero x) = [x, y] := by simp [hx, hy]
  rw [this]
  change (Engine.matchReplaceBinary (pmRule Γ) .zero isZero flatPlus (n + 3) [x, y] >>= _) = _
  rw [hm]
  rfl

end QNET.Pm
