import Verif.QAlg.Thm29
import Mathlib.RingTheory.PowerSeries.Basic
import Mathlib.RingTheory.PowerSeries.Derivative

/-!
# C31: `series_expand`

Expressions whose symbols and scalars depend on a parameter. The expansion of a symbol and of a scalar are given
(`Exp.atom`, `Exp.scal`: for each order, an expression (scalar) independent of the parameter); the model covers the combination of
expansions in sums, products and scalar multiples, and the abstract Taylor series of symbols.
-/

namespace QNET.QAlg

open QNET.Perm (Res Err)
open QNET.Indexed (Except.bind_ok mapM_ok_cons mapM_ok_forall₂)

variable {K : Type} [CommRing K] [DecidableEq K] (Γ : Ctx K)

/-- the expansion coefficients of the symbols and scalars -/
structure Exp (K : Type) where
  /-- coefficient `k` of the symbol `a` -/
  atom : ℕ → ℕ → QX K
  /-- coefficient `k` of the scalar `c` -/
  scal : K → ℕ → K

/-- `l[k]`, with `IndexError` -/
def at? {α : Type} (l : List α) (k : ℕ) : Res α := match l[k]? with | some x => .ok x | none => .error .indexError

/-- one entry of `summands`, abstract_quantum_algebra.py lines 1081-1085; the scalar `Zero` that is put in place of a product with a
vanishing factor is `none`. `z1`, `z2` are the tests `is_zero`. -/
def summand {α : Type} (z1 : α → Bool) (ml : α → QX K → Res (QX K)) (c1 : List α) (c2 : List (QX K)) (n k : ℕ) : Res (Option (QX K)) :=
  at? c1 k >>= fun a => at? c2 (n - k) >>= fun b =>
  if z1 a || decide (b = .zero) then .ok none else (ml a b).map some

/-- `sum += summand`, lines 1087-1089: placeholders are skipped; a placeholder as the first summand is the scalar zero, to which
adding `x` gives `x + 0` (`__radd__`, lines 228-230) -/
def accumulate (ad : QX K → QX K → Res (QX K)) : Option (QX K) → Option (QX K) → Res (Option (QX K))
  | s, none => .ok s
  | none, some x => (ad x .zero).map some
  | some s, some x => (ad s x).map some

/-- `_series_expand_combine_prod`, lines 1071-1092, followed by the replacement of the scalar zero by the zero of the class in
`series_expand`, lines 190-200 -/
def combineProd {α : Type} (z1 : α → Bool) (ml : α → QX K → Res (QX K)) (ad : QX K → QX K → Res (QX K)) (c1 : List α) (c2 : List (QX K))
    (order : ℕ) : Res (List (QX K)) :=
  (List.range (order + 1)).mapM (fun n =>
    (List.range (n + 1)).mapM (summand z1 ml c1 c2 n) >>= fun summands =>
    foldFirst (accumulate ad) summands >>= fun s => .ok (s.getD .zero))

/-- `zip(*tuples)`, line 494 (all tuples have the same length `order + 1`) -/
def zipAll (order : ℕ) (ls : List (List (QX K))) : Res (List (List (QX K))) :=
  (List.range (order + 1)).mapM (fun n => ls.mapM (fun l => at? l n))

/-- One level of `series_expand`: Commutator operator_algebra.py lines 588-596, QuantumPlus lines 492-495, QuantumTimes lines 535-546, ScalarTimesQuantumExpression lines 624-627;
symbols lines 365-371; zero and one are constant. -/
def seriesStep (E : Exp K) (rec : QX K → Res (List (QX K))) (n order : ℕ) : QX K → Res (List (QX K))
  | .plus l => l.mapM rec >>= fun ls => zipAll order ls >>= fun ts => ts.mapM (plusCreate Γ n)
  | .times [x, y] => rec x >>= fun c1 => rec y >>= fun c2 => combineProd (fun a => decide (a = .zero)) (mul Γ n) (add Γ n) c1 c2 order
  | .times (x :: rest) =>
    rec x >>= fun c1 => rec (.times rest) >>= fun c2 => combineProd (fun a => decide (a = .zero)) (mul Γ n) (add Γ n) c1 c2 order
  | .times [] => .error .assertion
  | .scal c t =>
    rec t >>= fun c2 => combineProd (fun a => decide (a = 0)) (mulScal Γ n) (add Γ n) ((List.range (order + 1)).map (E.scal c)) c2 order
  | .comm a b =>
    rec a >>= fun c1 => rec b >>= fun c2 =>
    (List.range (order + 1)).mapM (fun m =>
      (List.range (m + 1)).mapM (fun k => at? c1 k >>= fun x => at? c2 (m - k) >>= fun y => commCreate Γ n x y) >>= plusCreate Γ n)
  | .atom a => .ok ((List.range (order + 1)).map (E.atom a))
  | .zero => .ok (.zero :: List.replicate order .zero)
  | .one => .ok (.one :: List.replicate order .zero)

/-- `series_expand(param, about, order)` -/
def seriesExpand (E : Exp K) : ℕ → ℕ → QX K → Res (List (QX K))
  | 0, _, _ => .error .recursion
  | n + 1, order, x => seriesStep Γ E (seriesExpand E n order) n order x

section Val
variable {Γ} {A : Type} [Ring A] [Algebra K A] {ρ : ℕ → A} (E : Exp K)

variable (ρ) in
mutual
/-- Specification: the power series (in the distance from the expansion point) that an expression denotes, if the symbols and
scalars have the given expansions -/
noncomputable def sem : QX K → PowerSeries A
  | .atom a => PowerSeries.mk (fun k => val ρ (E.atom a k))
  | .zero => 0
  | .one => 1
  | .scal c t => PowerSeries.mk (fun k => algebraMap K A (E.scal c k)) * sem t
  | .plus l => (sems l).sum
  | .times l => (sems l).prod
  | .comm a b => sem a * sem b - sem b * sem a
/-- the same for lists -/
noncomputable def sems : List (QX K) → List (PowerSeries A)
  | [] => []
  | x :: l => sem x :: sems l
end

omit [DecidableEq K] in
theorem sems_map (l : List (QX K)) : sems ρ E l = l.map (sem ρ E) := by
  induction l with
  | nil => simp [sems]
  | cons x l ih => simp [sems, ih]

/-- the list `l` consists of the first `order + 1` coefficients of `f` -/
def IsTrunc (f : PowerSeries A) (order : ℕ) (l : List A) : Prop := l = (List.range (order + 1)).map (fun k => PowerSeries.coeff k f)

omit [DecidableEq K] [CommRing K] [Ring A] [Algebra K A] in
theorem at?_ok {α : Type} {l : List α} {k : ℕ} {x : α} (h : at? l k = .ok x) : l[k]? = some x := by
  unfold at? at h
  split at h
  · cases h; assumption
  · cases h

theorem isTrunc_get {f : PowerSeries A} {order k : ℕ} {l : List A} {x : A} (h : IsTrunc f order l) (hx : l[k]? = some x) : x = PowerSeries.coeff k f := by
  rw [h] at hx
  rw [List.getElem?_map] at hx
  obtain ⟨j, hj, rfl⟩ := Option.map_eq_some_iff.mp hx
  have := List.getElem?_eq_some_iff.mp hj
  obtain ⟨h1, h2⟩ := this
  rw [List.getElem_range] at h2
  rw [h2]

/-- the value of a summand -/
def oval (ρ : ℕ → A) : Option (QX K) → A
  | none => 0
  | some x => val ρ x

theorem sum_range_list {M : Type} [AddCommMonoid M] (f : ℕ → M) (n : ℕ) : ((List.range n).map f).sum = ∑ k ∈ Finset.range n, f k := by
  induction n with
  | zero => simp
  | succ n ih => rw [List.range_succ, List.map_append, List.sum_append, ih, Finset.sum_range_succ]; simp

theorem combineProd_val {α : Type} {z1 : α → Bool} {ml : α → QX K → Res (QX K)} {w : α → A} {c1 : List α} {c2 : List (QX K)} {n order : ℕ}
    {r : List (QX K)} {f g : PowerSeries A} (hs : ∀ l, (Γ.sortPlus l).Perm l) (hz : ∀ a, z1 a = true → w a = 0)
    (hm : ∀ a x r, ml a x = .ok r → val ρ r = w a * val ρ x)
    (h1 : IsTrunc f order (c1.map w)) (h2 : IsTrunc g order (c2.map (val ρ))) (h : combineProd z1 ml (add Γ n) c1 c2 order = .ok r) :
    IsTrunc (f * g) order (r.map (val ρ)) := by
  have hadd : ∀ a b r, add Γ n a b = .ok r → val ρ r = val ρ a + val ρ b := by
    intro a b r h
    simpa using (lin_sound (val_linear ρ) hs n).2 _ _ h
  unfold IsTrunc
  refine forall₂_map_eq (R := fun m x => val ρ x = PowerSeries.coeff m (f * g)) ?_ (fun _ _ h => h)
  refine (mapM_ok_forall₂ h).imp ?_
  intro m x hx
  obtain ⟨ss, h3, hx⟩ := Except.bind_ok hx
  obtain ⟨s, h4, hx⟩ := Except.bind_ok hx
  cases hx
  have h5 : oval ρ s = (ss.map (oval ρ)).sum := by
    refine foldFirst_sum (fun a b r h => ?_) h4
    cases b with
    | none => cases a <;> cases h <;> simp [oval]
    | some b =>
      cases a with
      | none =>
        obtain ⟨y, hy, rfl⟩ := QNET.Indexed.Except.map_ok h
        simp [oval, hadd _ _ _ hy, val]
      | some a =>
        obtain ⟨y, hy, rfl⟩ := QNET.Indexed.Except.map_ok h
        simp [oval, hadd _ _ _ hy]
  have h6 : val ρ (s.getD .zero) = oval ρ s := by cases s <;> simp [oval, val]
  rw [h6, h5, forall₂_map_eq (f := fun k => PowerSeries.coeff k f * PowerSeries.coeff (m - k) g) (mapM_ok_forall₂ h3), sum_range_list, PowerSeries.coeff_mul,
    Finset.Nat.sum_antidiagonal_eq_sum_range_succ (fun i j => PowerSeries.coeff i f * PowerSeries.coeff j g)]
  intro k o hk
  obtain ⟨a, ha, hk⟩ := Except.bind_ok hk
  obtain ⟨b, hb, hk⟩ := Except.bind_ok hk
  have ha' := isTrunc_get h1 (x := w a) (k := k) (by rw [List.getElem?_map, at?_ok ha]; rfl)
  have hb' := isTrunc_get h2 (x := val ρ b) (k := m - k) (by rw [List.getElem?_map, at?_ok hb]; rfl)
  rw [← ha', ← hb']
  split at hk
  · rename_i hz'
    cases hk
    rcases Bool.or_eq_true_iff.mp hz' with hz' | hz'
    · simp [oval, hz _ hz']
    · rw [of_decide_eq_true hz']; simp [oval, val]
  · obtain ⟨y, hy, rfl⟩ := QNET.Indexed.Except.map_ok hk
    exact hm _ _ _ hy

theorem zipAll_val {order n : ℕ} {l : List (QX K)} {ls ts : List (List (QX K))} {r : List (QX K)} (hs : ∀ l, (Γ.sortPlus l).Perm l)
    (hl : List.Forall₂ (fun x s => IsTrunc (sem ρ E x) order (s.map (val ρ))) l ls) (h : zipAll order ls = .ok ts)
    (hr : ts.mapM (plusCreate Γ n) = .ok r) : IsTrunc (l.map (sem ρ E)).sum order (r.map (val ρ)) := by
  unfold IsTrunc
  have h1 : r.map (val ρ) = ts.map (fun t => (t.map (val ρ)).sum) :=
    forall₂_map_eq (mapM_ok_forall₂ hr) (fun t x hx => (lin_sound (val_linear ρ) hs n).2 _ _ hx)
  rw [h1]
  refine forall₂_map_eq (R := fun m t => (t.map (val ρ)).sum = PowerSeries.coeff m (l.map (sem ρ E)).sum) ?_ (fun _ _ h => h)
  refine (mapM_ok_forall₂ h).imp ?_
  intro m t ht
  have h2 := mapM_ok_forall₂ ht
  clear h hr h1 ht
  induction hl generalizing t with
  | nil => cases h2; simp
  | @cons x s l ls h3 h4 ih =>
    cases h2 with
    | @cons _ y _ t' h5 h6 =>
      simp only [List.map_cons, List.sum_cons, map_add]
      rw [ih t' h6, isTrunc_get h3 (x := val ρ y) (by rw [List.getElem?_map, at?_ok h5]; rfl)]

omit [DecidableEq K] in
theorem isTrunc_const {x : QX K} {f : PowerSeries A} (hf : f = PowerSeries.C (val ρ x)) (order : ℕ) :
    IsTrunc f order ((x :: List.replicate order (.zero : QX K)).map (val ρ)) := by
  unfold IsTrunc
  rw [hf, List.range_succ_eq_map, List.map_cons, List.map_cons, List.map_map, List.map_replicate]
  congr 1
  · simp
  rw [eq_comm, List.eq_replicate_iff]
  constructor
  · simp
  · intro b hb
    obtain ⟨k, _, rfl⟩ := List.mem_map.mp hb
    simp [val, PowerSeries.coeff_C]

theorem series_trunc (hΓ : SoundCtx Γ ρ) : ∀ (n order : ℕ) (x : QX K) (r : List (QX K)), seriesExpand Γ E n order x = .ok r →
    IsTrunc (sem ρ E x) order (r.map (val ρ)) := by
  intro n
  induction n with
  | zero => intro order x r h; cases h
  | succ n ih =>
    intro order x r h
    rw [seriesExpand] at h
    have hmul : ∀ (a b r : QX K), mul Γ n a b = .ok r → val ρ r = val ρ a * val ρ b := by
      intro a b r h
      simpa using (times_sound hΓ n).1 _ _ h
    have hz : ∀ a : QX K, decide (a = .zero) = true → val ρ a = 0 := by
      intro a ha
      rw [of_decide_eq_true ha]; simp [val]
    cases x with
    | plus l =>
      obtain ⟨ls, h1, h⟩ := Except.bind_ok h
      obtain ⟨ts, h2, h3⟩ := Except.bind_ok h
      rw [sem, sems_map]
      exact zipAll_val E hΓ.sortPlus ((mapM_ok_forall₂ h1).imp (fun x s hx => ih order x s hx)) h2 h3
    | times l =>
      match l, h with
      | [x, y], h =>
        obtain ⟨c1, h1, h⟩ := Except.bind_ok h
        obtain ⟨c2, h2, h⟩ := Except.bind_ok h
        rw [sem, sems_map, List.map_cons, List.map_cons, List.map_nil, List.prod_cons, List.prod_cons, List.prod_nil, mul_one]
        exact combineProd_val hΓ.sortPlus hz hmul (ih _ _ _ h1) (ih _ _ _ h2) h
      | [x], h =>
        obtain ⟨c1, h1, h⟩ := Except.bind_ok h
        obtain ⟨c2, h2, h⟩ := Except.bind_ok h
        have := combineProd_val hΓ.sortPlus hz hmul (ih _ _ _ h1) (ih _ _ _ h2) h
        rw [sem, sems_map, List.map_cons, List.prod_cons, ← sems_map, ← sem]
        exact this
      | x :: y :: z :: l, h =>
        obtain ⟨c1, h1, h⟩ := Except.bind_ok h
        obtain ⟨c2, h2, h⟩ := Except.bind_ok h
        have := combineProd_val hΓ.sortPlus hz hmul (ih _ _ _ h1) (ih _ _ _ h2) h
        rw [sem, sems_map, List.map_cons, List.prod_cons, ← sems_map, ← sem]
        exact this
    | scal c t =>
      obtain ⟨c2, h2, h⟩ := Except.bind_ok h
      rw [sem]
      refine combineProd_val (w := algebraMap K A) hΓ.sortPlus (fun a ha => ?_) (fun a x r hr => ?_) ?_ (ih _ _ _ h2) h
      · rw [of_decide_eq_true ha, map_zero]
      · rw [(lin_sound (val_linear ρ) hΓ.sortPlus n).1 _ _ _ hr, Algebra.smul_def]
      · unfold IsTrunc; simp
    | comm a b =>
      obtain ⟨c1, h1, h⟩ := Except.bind_ok h
      obtain ⟨c2, h2, h⟩ := Except.bind_ok h
      have t1 := ih _ _ _ h1
      have t2 := ih _ _ _ h2
      unfold IsTrunc
      have hf := mapM_ok_forall₂ h
      refine forall₂_map_eq hf (f := fun k => PowerSeries.coeff k (sem ρ E (.comm a b))) (fun m s hs => ?_)
      obtain ⟨ss, h3, h4⟩ := Except.bind_ok hs
      rw [(lin_sound (val_linear ρ) hΓ.sortPlus n).2 _ _ h4]
      rw [forall₂_map_eq (mapM_ok_forall₂ h3) (f := fun k => PowerSeries.coeff k (sem ρ E a) * PowerSeries.coeff (m - k) (sem ρ E b)
        - PowerSeries.coeff (m - k) (sem ρ E b) * PowerSeries.coeff k (sem ρ E a)) (fun k s hs => ?_)]
      · rw [sum_range_list, sem, map_sub, PowerSeries.coeff_mul, PowerSeries.coeff_mul, Finset.sum_sub_distrib]
        congr 1
        · rw [Finset.Nat.sum_antidiagonal_eq_sum_range_succ_mk]
        · rw [← Finset.Nat.sum_antidiagonal_swap, Finset.Nat.sum_antidiagonal_eq_sum_range_succ_mk]
          rfl
      · obtain ⟨x, h5, hs⟩ := Except.bind_ok hs
        obtain ⟨y, h6, hs⟩ := Except.bind_ok hs
        rw [commCreate_val hΓ n _ _ _ hs, isTrunc_get t1 (x := val ρ x) (by rw [List.getElem?_map, at?_ok h5]; rfl),
          isTrunc_get t2 (x := val ρ y) (by rw [List.getElem?_map, at?_ok h6]; rfl)]
    | atom a =>
      cases h
      unfold IsTrunc
      rw [sem, List.map_map]
      apply List.map_congr_left
      intro k _
      simp
    | zero => cases h; exact isTrunc_const (by simp [sem, val]) order
    | one => cases h; exact isTrunc_const (by simp [sem, val]) order

end Val

/-- C31: for every expression built from sums, products and scalar multiples, `series_expand(param, about, order)` returns exactly
`order + 1` coefficients, which are the coefficients of the power series of the expression (products of power series for
products - the Cauchy product), in every algebra. -/
theorem C31_sums_products_partial {A : Type} [Ring A] [Algebra K A] {ρ : ℕ → A} {Γ : Ctx K} (hΓ : SoundCtx Γ ρ) (E : Exp K) {n order : ℕ} {x : QX K}
    {r : List (QX K)} (h : seriesExpand Γ E n order x = .ok r) :
    r.length = order + 1 ∧ ∀ (k : ℕ) (e : QX K), r[k]? = some e → val ρ e = PowerSeries.coeff k (sem ρ E x) := by
  have h1 := series_trunc E hΓ n order x r h
  refine ⟨?_, fun k e he => ?_⟩
  · have := congrArg List.length h1
    simpa using this
  · exact isTrunc_get h1 (by rw [List.getElem?_map, he]; rfl)

/-- sample: `A(x) = A0 + A1 x`, `B(x) = B0 + B2 x^2` (symbols 0, 1; coefficients are symbols 10, 11, 20, 22), scalars constant -/
def sampleExp : Exp ℤ where
  atom a k := if a = 0 then (if k = 0 then .atom 10 else if k = 1 then .atom 11 else .zero)
    else (if k = 0 then .atom 20 else if k = 2 then .atom 22 else .zero)
  scal c k := if k = 0 then c else 0

example : seriesExpand (Ctx.plain ℤ) sampleExp 8 2 (.scal 3 (.times [.atom 0, .atom 1])) = .ok
    [.scal 3 (.times [.atom 10, .atom 20]), .scal 3 (.times [.atom 11, .atom 20]), .scal 3 (.times [.atom 10, .atom 22])] := by kernel_rfl

/-! ## The abstract Taylor series -/

section Taylor
variable {α : Type}

/-- the loop of `QuantumExpression._series_expand`, lines 206-214: `e` is the current derivative; `k` steps remain, the next order is
`m`. `D` is `diff(param)`, `ev` evaluation at the expansion point, `dv` division by a natural number. -/
def taylorLoop (isZero : α → Bool) (D ev : α → α) (dv : α → ℕ → α) : ℕ → ℕ → α → List α
  | 0, _, _ => []
  | k + 1, m, e =>
    if isZero e then e :: taylorLoop isZero D ev dv k (m + 1) e
    else dv (ev (D e)) m.factorial :: taylorLoop isZero D ev dv k (m + 1) (D e)

/-- `QuantumExpression._series_expand`, lines 203-215 -/
def taylor (isZero : α → Bool) (D ev : α → α) (dv : α → ℕ → α) (order : ℕ) (e : α) : List α :=
  ev e :: taylorLoop isZero D ev dv order 1 e

variable {A : Type} [Ring A] [Algebra ℚ A] {isZero : α → Bool} {D ev : α → α} {dv : α → ℕ → α} {s : α → PowerSeries A}

/-- `s` interprets expressions as power series about the expansion point, `D` as derivative, `ev` as evaluation at the point -/
structure TaylorSem (isZero : α → Bool) (D ev : α → α) (dv : α → ℕ → α) (s : α → PowerSeries A) : Prop where
  zero : ∀ e, isZero e = true → s e = 0
  deriv : ∀ e j, PowerSeries.coeff j (s (D e)) = ((j + 1 : ℕ) : ℚ) • PowerSeries.coeff (j + 1) (s e)
  eval : ∀ e, PowerSeries.coeff 0 (s (ev e)) = PowerSeries.coeff 0 (s e)
  div : ∀ e n, PowerSeries.coeff 0 (s (dv e n)) = ((n : ℚ)⁻¹) • PowerSeries.coeff 0 (s e)

theorem taylorLoop_spec (hs : TaylorSem isZero D ev dv s) (f : PowerSeries A) : ∀ (k m : ℕ) (e : α),
    (∀ j, ((j + m).factorial : ℚ) • (PowerSeries.coeff (j + m) f) = (j.factorial : ℚ) • PowerSeries.coeff j (s e)) →
    (taylorLoop isZero D ev dv k (m + 1) e).map (fun x => PowerSeries.coeff 0 (s x))
      = (List.range k).map (fun j => PowerSeries.coeff (j + (m + 1)) f) := by
  intro k
  have hf : ∀ n : ℕ, (n.factorial : ℚ) ≠ 0 := fun n => by exact_mod_cast n.factorial_ne_zero
  induction k with
  | zero => intro m e _; rfl
  | succ k ih =>
    intro m e he
    have h1 : PowerSeries.coeff (m + 1) f = ((m + 1).factorial : ℚ)⁻¹ • PowerSeries.coeff 1 (s e) := by
      have := he 1
      rw [Nat.factorial_one, Nat.cast_one, one_smul, Nat.add_comm 1 m] at this
      rw [← this, smul_smul, inv_mul_cancel₀ (hf _), one_smul]
    have hr : (List.range (k + 1)).map (fun j => PowerSeries.coeff (j + (m + 1)) f)
        = PowerSeries.coeff (m + 1) f :: (List.range k).map (fun j => PowerSeries.coeff (j + (m + 1 + 1)) f) := by
      rw [List.range_succ_eq_map, List.map_cons, List.map_map, Nat.zero_add]
      congr 1
      apply List.map_congr_left
      intro j _
      simp only [Function.comp, Nat.succ_eq_add_one]
      rw [show j + 1 + (m + 1) = j + (m + 1 + 1) by omega]
    rw [hr, taylorLoop]
    split
    · rename_i hz
      have hz := hs.zero e hz
      rw [List.map_cons, ih (m + 1) e (fun j => ?_), h1]
      · simp [hz]
      · have := he (j + 1)
        rw [hz] at this ⊢
        rw [show j + (m + 1) = j + 1 + m by omega, this]
        simp
    · rw [List.map_cons, ih (m + 1) (D e) (fun j => ?_), h1, hs.div, hs.eval, hs.deriv]
      · simp
      · have := he (j + 1)
        rw [show j + (m + 1) = j + 1 + m by omega, this, hs.deriv, smul_smul]
        congr 1
        rw [Nat.factorial_succ]; push_cast; ring

/-- C31: the Taylor series computed by repeated differentiation and evaluation has `order + 1` entries, whose values are the
coefficients of the power series of the expression (in any, also non-commutative, algebra over the rationals). -/
theorem C31_taylor (hs : TaylorSem isZero D ev dv s) (order : ℕ) (e : α) :
    (taylor isZero D ev dv order e).length = order + 1 ∧
    (taylor isZero D ev dv order e).map (fun x => PowerSeries.coeff 0 (s x)) = (List.range (order + 1)).map (fun k => PowerSeries.coeff k (s e)) := by
  have h : (taylor isZero D ev dv order e).map (fun x => PowerSeries.coeff 0 (s x)) = (List.range (order + 1)).map (fun k => PowerSeries.coeff k (s e)) := by
    rw [taylor, List.map_cons, taylorLoop_spec hs (s e) order 0 e (fun j => rfl), hs.eval, List.range_succ_eq_map, List.map_cons, List.map_map]
    rfl
  refine ⟨?_, h⟩
  have := congrArg List.length h
  simpa using this

end Taylor

/-- the hypotheses of `C31_taylor` are met by power series themselves, e.g. `D` the derivative: coefficients of `exp`-like series -/
noncomputable example : TaylorSem (α := PowerSeries ℚ) (fun _ => false) (fun f => PowerSeries.mk (fun j => ((j + 1 : ℕ) : ℚ) • PowerSeries.coeff (j + 1) f))
    (fun f => PowerSeries.C (PowerSeries.coeff 0 f)) (fun f n => PowerSeries.C ((n : ℚ)⁻¹) * f) id :=
  ⟨fun _ h => (Bool.false_ne_true h).elim, fun _ _ => by simp, fun _ => by simp, fun _ _ => by simp⟩

/-! ## Refutation for operators applied to states and for outer products -/

/-- `OperatorTimesKet._series_expand` (state_algebra.py lines 524-529) and `KetBra._series_expand` (lines 704-708):
`tuple(ce[k] * te[n - k] for n in range(order + 1) for k in range(n + 1))` -/
def flatProducts {α β γ : Type} (ml : α → β → γ) (ce : List α) (te : List β) (order : ℕ) : Res (List γ) :=
  ((List.range (order + 1)).flatMap (fun n : ℕ => (List.range (n + 1)).map (fun k : ℕ => (n, k)))).mapM (fun p : ℕ × ℕ =>
    at? ce p.2 >>= fun a => at? te (p.1 - p.2) >>= fun b => .ok (ml a b))

theorem mapM_length {ε α β : Type} {f : α → Except ε β} {l : List α} {r : List β} (h : l.mapM f = .ok r) : r.length = l.length :=
  (mapM_ok_forall₂ h).length_eq.symm

/-- C31 refuted for operators applied to states and for outer products: the number of returned coefficients is
`1 + 2 + ... + (order+1)`, which differs from `order + 1` for every order above 0, for all factors. -/
theorem C31_refuted_ket_length {α β γ : Type} (ml : α → β → γ) (ce : List α) (te : List β) (order : ℕ) {r : List γ}
    (h : flatProducts ml ce te order = .ok r) : 2 * r.length = (order + 1) * (order + 2) ∧ (0 < order → r.length ≠ order + 1) := by
  have h1 := mapM_length h
  have h2 : ∀ m : ℕ, 2 * ((List.range m).flatMap (fun n : ℕ => (List.range (n + 1)).map (fun k : ℕ => (n, k)))).length = m * (m + 1) := by
    intro m
    induction m with
    | zero => rfl
    | succ m ih =>
      rw [List.range_succ, List.flatMap_append, List.length_append, Nat.mul_add, ih]
      simp
      ring
  have h3 := h2 (order + 1)
  rw [← h1] at h3
  refine ⟨h3, fun ho e => ?_⟩
  rw [e] at h3
  have : order + 1 + 1 = 2 := by
    have h4 : (order + 1) * 2 = (order + 1) * (order + 1 + 1) := by rw [← h3]; ring
    exact (Nat.eq_of_mul_eq_mul_left (by omega) h4).symm
  omega

/-- C31 refuted, concretely: `(A0 + A1 x)(psi0 + psi1 x)` to first order gives three entries `A0 psi0, A0 psi1, A1 psi0` instead of
`A0 psi0, A0 psi1 + A1 psi0`; the input coefficients are as returned by `series_expand` -/
theorem C31_refuted_ket_example : flatProducts (fun (a b : ℕ) => (a, b)) [0, 1] [10, 11] 1 = .ok [(0, 10), (0, 11), (1, 10)] := by decide +kernel

end QNET.QAlg
