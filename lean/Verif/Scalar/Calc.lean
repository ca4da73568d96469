import Verif.Scalar.Thm
import Verif.QAlg.Series
import Mathlib.RingTheory.Derivation.Basic
import Mathlib.RingTheory.PowerSeries.Basic
import Mathlib.Analysis.SpecialFunctions.Pow.Deriv

/-!
# C100: `expand`, `diff` and `series_expand` of scalars

Python numbers and SymPy values are the elements of a field `K`; `BraKet`s and other scalar expressions are symbols whose derivatives and series are given.
-/

namespace QNET.Scalar

open QNET.Perm (Res Err)
open QNET.Indexed (Except.bind_ok mapM_ok_cons mapM_ok_forall₂)
open QNET.QAlg (at? at?_ok isTrunc_get sum_range_list forall₂_map_eq IsTrunc)

variable {K : Type} [Field K] [DecidableEq K]

/-! ### model -/

/-- what SymPy knows about values, and how symbols depend on the parameter -/
structure CalcCtx (K : Type) where
  /-- `x.val.args` if `x.val` is a `sympy.Add` -/
  addArgs : K → Option (List K)
  /-- the parameter is a free symbol of the symbol `a` -/
  symDep : ℕ → Bool
  /-- the parameter is a free symbol of the value `k` -/
  valDep : K → Bool
  /-- `_diff` of a symbol -/
  symDiff : ℕ → SX K
  /-- `sympy.diff(k, sym)`, or 0 for numbers -/
  valDiff : K → K
  /-- the expansion of a symbol; `none`: an exception -/
  symSeries : ℕ → ℕ → SX K
  /-- the expansion of a value: the coefficients that `sympy.series` gives; `none`: singular at the point -/
  valSeries : K → Option (ℕ → K)

variable (Γ : Ctx K) (Δ : CalcCtx K)

/-- `get_summands` in `ScalarTimes._expand`, scalar_algebra.py lines 919-925; the summands of a `sympy.Add` are wrapped by `ScalarTimes.create` (lines
898-905) -/
def getSummands : SX K → List (SX K)
  | .plus l => l
  | .val k => match Δ.addArgs k with
    | some ks => ks.map create
    | none => [.val k]
  | x => [x]

/-- `cartesian_product(*lists)` -/
def cartesian : List (List (SX K)) → List (List (SX K))
  | [] => [[]]
  | l :: ls => l.flatMap (fun x => (cartesian ls).map (fun c => x :: c))

/-- `expand()`: `ScalarTimes._expand` scalar_algebra.py lines 916-938, `QuantumPlus._expand` abstract_quantum_algebra.py lines 488-490, other scalars
lines 116-117 (unchanged; also `ScalarPower`). The first argument is the recursion limit. -/
def expand : ℕ → SX K → Res (SX K)
  | 0, _ => .error .recursion
  | n + 1, .times l =>
    l.mapM (expand n) >>= fun eops =>
    (cartesian (eops.map (getSummands Δ))).mapM (timesCreate Γ) >>= fun summands =>
    plusCreate Γ summands >>= fun ret =>
    match ret with
    | .plus m => expand n (.plus m)
    | ret => .ok ret
  | n + 1, .plus l => l.mapM (expand n) >>= plusCreate Γ
  | _ + 1, x => .ok x

mutual
/-- `sym.free_symbols.issubset(self.free_symbols)`, abstract_quantum_algebra.py line 134, for a symbol -/
def depends : SX K → Bool
  | .zero => false
  | .one => false
  | .val k => Δ.valDep k
  | .sym a => Δ.symDep a
  | .plus l => dependsL l
  | .times l => dependsL l
  | .pow b _ => depends b
/-- some element depends on the symbol -/
def dependsL : List (SX K) → Bool
  | [] => false
  | x :: l => depends x || dependsL l
end

mutual
/-- `_diff(sym)`: Zero line 531, One lines 698-699, ScalarValue lines 245-249, ScalarPower lines 1071-1077 (which calls `_diff` of the base), QuantumPlus
abstract_quantum_algebra.py lines 497-498, QuantumTimes lines 548-552 -/
def diff' : ℕ → SX K → Res (SX K)
  | 0, _ => .error .recursion
  | _ + 1, .zero => .ok .zero
  | _ + 1, .one => .ok .zero
  | _ + 1, .val k => .ok (create (Δ.valDiff k))
  | _ + 1, .sym a => .ok (Δ.symDiff a)
  | n + 1, .plus l => l.mapM (diff n) >>= fun ds => ds.foldlM (add Γ) .zero
  | n + 1, .times (x :: l) =>
    timesCreate Γ l >>= fun rest => diff n x >>= fun dx => mul Γ dx rest >>= fun a => diff n rest >>= fun dr => mul Γ x dr >>= fun b => add Γ a b
  | _ + 1, .times [] => .error .assertion
  | n + 1, .pow b e =>
    diff' n b >>= fun inner =>
    if isZero inner then .ok .zero
    else powCreate b (e - 1) >>= fun p => mul Γ (create (e : K)) p >>= fun q => mul Γ q inner
/-- `diff(sym)`, abstract_quantum_algebra.py lines 127-151, for `n = 1`: zero if the symbol does not occur; otherwise `_diff`, followed by `expand()` (and
`simplify_scalar`, which does not change values and is left out) -/
def diff : ℕ → SX K → Res (SX K)
  | 0, _ => .error .recursion
  | n + 1, x => if depends Δ x then diff' n x >>= fun d => if isZero d then .ok d else expand Γ Δ n d else .ok .zero
end

/-- the loop over `n` in `_series_expand_combine_prod`, lines 1079-1090: one coefficient of the product -/
def coeffProd (c1 c2 : List (SX K)) (n : ℕ) : Res (SX K) :=
  (List.range (n + 1)).mapM (fun k => at? c1 k >>= fun a => at? c2 (n - k) >>= fun b => if isZero a || isZero b then .ok .zero else mul Γ a b) >>= fun ss =>
  match ss with
  | [] => .error .indexError
  | s :: rest => rest.foldlM (fun sum x => if isZero x then .ok sum else add Γ sum x) s

/-- `series_expand`, lines 190-200: zeros and ones become the singletons -/
def stable (v : SX K) : SX K := if isZero v then .zero else if isOne v then .one else v

/-- `_series_expand(param, about, order)`: ScalarValue lines 267-289, Zero and One (as values), QuantumPlus abstract_quantum_algebra.py lines 492-495,
QuantumTimes lines 535-546, ScalarPower scalar_algebra.py lines 1079-1095: a product of `exp` copies of the base for positive exponents, otherwise `ValueError`. -/
def seriesStep (order : ℕ) (sub : SX K → Res (List (SX K))) : SX K → Res (List (SX K))
  | .zero => .ok (.zero :: List.replicate order .zero)
  | .one => .ok (.one :: List.replicate order .zero)
  | .val k => match Δ.valSeries k with
    | some c => .ok ((List.range (order + 1)).map (fun j => create (c j)))
    | none => .error .valueError
  | .sym a => .ok ((List.range (order + 1)).map (Δ.symSeries a))
  | .plus l => l.mapM sub >>= fun ls => (List.range (order + 1)).mapM (fun j => ls.mapM (fun c => at? c j) >>= plusCreate Γ)
  | .times [] => .error .assertion
  | .times [x, y] => sub x >>= fun c1 => sub y >>= fun c2 => (List.range (order + 1)).mapM (coeffProd Γ c1 c2)
  | .times (x :: rest) => sub x >>= fun c1 => sub (.times rest) >>= fun c2 => (List.range (order + 1)).mapM (coeffProd Γ c1 c2)
  | .pow b e => if e > 0 then sub (.times (List.replicate e.toNat b)) else .error .valueError

/-- `series_expand(param, about, order)`, abstract_quantum_algebra.py lines 188-201; the second argument is the recursion limit -/
def series (order : ℕ) : ℕ → SX K → Res (List (SX K))
  | 0, _ => .error .recursion
  | n + 1, x => (seriesStep Γ Δ order (series order n) x).map (List.map stable)

/-! ### specification -/

section
variable {L : Type} [Field L] [Algebra K L] (ρ : ℕ → L)

/-- the derivation `δ` describes how values depend on the parameter -/
structure Derives (δ : Derivation ℤ L L) : Prop where
  sym : ∀ a, V ρ (Δ.symDiff a) (δ (ρ a))
  symDep : ∀ a, Δ.symDep a = false → δ (ρ a) = 0
  val : ∀ k, algebraMap K L (Δ.valDiff k) = δ (algebraMap K L k)
  valDep : ∀ k, Δ.valDep k = false → δ (algebraMap K L k) = 0

/-- the summands of a value add up to it -/
def AddOk : Prop := ∀ k ks, Δ.addArgs k = some ks → ks.sum = k

mutual
/-- the power series (in the distance from the expansion point) that a scalar denotes -/
noncomputable def ssem : SX K → PowerSeries L
  | .zero => 0
  | .one => 1
  | .val k => PowerSeries.mk (fun j => algebraMap K L (((Δ.valSeries k).getD (fun _ => 0)) j))
  | .sym a => PowerSeries.mk (fun j => sval ρ (Δ.symSeries a j))
  | .plus l => (ssems l).sum
  | .times l => (ssems l).prod
  | .pow b e => ssem b ^ e.toNat
/-- the same for lists -/
noncomputable def ssems : List (SX K) → List (PowerSeries L)
  | [] => []
  | x :: l => ssem x :: ssems l
end

omit [DecidableEq K] in
theorem ssems_map (l : List (SX K)) : ssems Δ ρ l = l.map (ssem Δ ρ) := by
  induction l with
  | nil => simp [ssems]
  | cons x l ih => simp [ssems, ih]

end

/-! ### proofs: expand -/

section
variable {Γ Δ} {L : Type} [Field L] [Algebra K L] {ρ : ℕ → L}

theorem getSummands_V (hA : AddOk Δ) {x : SX K} (hx : Def ρ x) : (∀ y ∈ getSummands Δ x, Def ρ y) ∧ ((getSummands Δ x).map (sval ρ)).sum = sval ρ x := by
  unfold getSummands
  split
  · rename_i l
    rw [Def, defs_iff] at hx
    exact ⟨hx, by rw [sval, svals_map]⟩
  · rename_i k
    split
    · rename_i ks hk
      refine ⟨fun y hy => ?_, ?_⟩
      · obtain ⟨j, _, rfl⟩ := List.mem_map.1 hy
        exact (create_V j).1
      · rw [List.map_map, sval, ← hA k ks hk, map_list_sum]
        congr 1
        exact List.map_congr_left fun j _ => (create_V j).2
    · simp [Def]
  · simp [hx]

theorem cartesian_V : ∀ {ls : List (List (SX K))}, (∀ l ∈ ls, ∀ x ∈ l, Def ρ x) → (∀ c ∈ cartesian ls, ∀ x ∈ c, Def ρ x) ∧
    ((cartesian ls).map (fun c => (c.map (sval ρ)).prod)).sum = (ls.map (fun l => (l.map (sval ρ)).sum)).prod
  | [], _ => by simp [cartesian]
  | l :: ls, h => by
    obtain ⟨h1, h2⟩ := cartesian_V (ls := ls) (fun m hm => h m (by simp [hm]))
    have hl := h l (by simp)
    refine ⟨?_, ?_⟩
    · intro c hc x hx
      simp only [cartesian, List.mem_flatMap, List.mem_map] at hc
      obtain ⟨y, hy, c', hc', rfl⟩ := hc
      rcases List.mem_cons.1 hx with rfl | hx
      · exact hl _ hy
      · exact h1 c' hc' x hx
    · simp only [List.map_cons, List.prod_cons, ← h2, cartesian]
      clear h h1 h2 hl
      induction l with
      | nil => simp
      | cons y l ih =>
        simp only [List.flatMap_cons, List.map_append, List.sum_append, List.map_cons, List.sum_cons, ih, List.map_map, Function.comp_def, List.prod_cons]
        rw [List.sum_map_mul_left, add_mul]

theorem mapM_V {f : SX K → Res (SX K)} {g : SX K → L} : ∀ {l r : List (SX K)}, (∀ x ∈ l, ∀ y, f x = .ok y → V ρ y (g x)) → l.mapM f = .ok r →
    (∀ y ∈ r, Def ρ y) ∧ r.map (sval ρ) = l.map g
  | [], r, _, h => by cases h; simp
  | x :: l, r, hf, h => by
    obtain ⟨y, r', h1, h2, rfl⟩ := mapM_ok_cons h
    obtain ⟨a1, a2⟩ := mapM_V (fun x hx => hf x (by simp [hx])) h2
    have := hf x (by simp) y h1
    refine ⟨fun z hz => ?_, by simp [a2, this.2]⟩
    rcases List.mem_cons.1 hz with rfl | hz
    · exact this.1
    · exact a1 z hz

theorem mapM_V' {f : List (SX K) → Res (SX K)} {g : List (SX K) → L} : ∀ {l : List (List (SX K))} {r : List (SX K)},
    (∀ x ∈ l, ∀ y, f x = .ok y → V ρ y (g x)) → l.mapM f = .ok r → (∀ y ∈ r, Def ρ y) ∧ r.map (sval ρ) = l.map g
  | [], r, _, h => by cases h; simp
  | x :: l, r, hf, h => by
    obtain ⟨y, r', h1, h2, rfl⟩ := mapM_ok_cons h
    obtain ⟨a1, a2⟩ := mapM_V' (fun x hx => hf x (by simp [hx])) h2
    have := hf x (by simp) y h1
    refine ⟨fun z hz => ?_, by simp [a2, this.2]⟩
    rcases List.mem_cons.1 hz with rfl | hz
    · exact this.1
    · exact a1 z hz

theorem expand_V (hΓ : SortCtx Γ) (hA : AddOk Δ) : ∀ (n : ℕ) (x r : SX K), Def ρ x → expand Γ Δ n x = .ok r → V ρ r (sval ρ x) := by
  intro n
  induction n with
  | zero => intro x r _ h; cases h
  | succ n ih =>
    intro x r hx h
    have hrefl : ∀ {y : SX K}, Def ρ y → (Except.ok y : Res (SX K)) = .ok r → V ρ r (sval ρ y) := by
      intro y hy he
      cases he
      exact ⟨hy, rfl⟩
    cases x with
    | times l =>
      rw [Def, defs_iff] at hx
      obtain ⟨eops, h1, h⟩ := Except.bind_ok h
      obtain ⟨ss, h2, h⟩ := Except.bind_ok h
      obtain ⟨ret, h3, h⟩ := Except.bind_ok h
      obtain ⟨d1, e1⟩ := mapM_V (ρ := ρ) (g := sval ρ) (fun x hx' y hy => ih x y (hx x hx') hy) h1
      have hg : ∀ m ∈ eops.map (getSummands Δ), ∀ y ∈ m, Def ρ y := by
        intro m hm y hy
        obtain ⟨x, hx, rfl⟩ := List.mem_map.1 hm
        exact (getSummands_V hA (d1 x hx)).1 y hy
      obtain ⟨d2, e2⟩ := cartesian_V hg
      obtain ⟨d3, e3⟩ := mapM_V' (ρ := ρ) (g := fun c => (c.map (sval ρ)).prod) (fun c hc y hy => timesCreate_V hΓ (d2 c hc) hy) h2
      have hr := plusCreate_V hΓ d3 h3
      have hval : (ss.map (sval ρ)).sum = sval ρ (.times l) := by
        rw [e3, e2, List.map_map, sval, svals_map, ← e1]
        congr 1
        exact List.map_congr_left fun x hx => (getSummands_V hA (d1 x hx)).2
      rw [hval] at hr
      split at h
      · rename_i m
        have := ih _ r hr.1 h
        rw [hr.2] at this
        exact this
      · cases h
        exact hr
    | plus l =>
      rw [Def, defs_iff] at hx
      obtain ⟨es, h1, h2⟩ := Except.bind_ok h
      obtain ⟨d1, e1⟩ := mapM_V (ρ := ρ) (g := sval ρ) (fun x hx' y hy => ih x y (hx x hx') hy) h1
      have := plusCreate_V hΓ d1 h2
      rw [e1] at this
      rw [sval, svals_map]
      exact this
    | zero => exact hrefl hx h
    | one => exact hrefl hx h
    | val k => exact hrefl hx h
    | sym a => exact hrefl hx h
    | pow b e => exact hrefl hx h

/-! ### proofs: diff -/

mutual
theorem not_depends {δ : Derivation ℤ L L} (h : Derives Δ ρ δ) : ∀ x : SX K, depends Δ x = false → δ (sval ρ x) = 0
  | .zero, _ => by simp [sval]
  | .one, _ => by simp [sval]
  | .val k, hx => by simpa [sval] using h.valDep k hx
  | .sym a, hx => by simpa [sval] using h.symDep a hx
  | .plus l, hx => by rw [sval]; exact (not_dependsL h l hx).1
  | .times l, hx => by rw [sval]; exact (not_dependsL h l hx).2
  | .pow b e, hx => by
    rw [sval, Derivation.leibniz_zpow, not_depends h b hx]
    simp
theorem not_dependsL {δ : Derivation ℤ L L} (h : Derives Δ ρ δ) : ∀ l : List (SX K), dependsL Δ l = false → δ (svals ρ l).sum = 0 ∧ δ (svals ρ l).prod = 0
  | [], _ => by simp [svals]
  | x :: l, hx => by
    simp only [dependsL, Bool.or_eq_false_iff] at hx
    have h1 := not_depends h x hx.1
    have h2 := not_dependsL h l hx.2
    simp [svals, h1, h2.1, h2.2]
end

theorem foldlM_add_V (hΓ : SortCtx Γ) : ∀ {l : List (SX K)} {z r : SX K}, Def ρ z → (∀ x ∈ l, Def ρ x) → l.foldlM (add Γ) z = .ok r →
    V ρ r (sval ρ z + (l.map (sval ρ)).sum)
  | [], z, r, hz, _, h => by cases h; exact ⟨hz, by simp⟩
  | x :: l, z, r, hz, hl, h => by
    rw [List.foldlM_cons] at h
    obtain ⟨y, h1, h2⟩ := Except.bind_ok h
    have hy := add_V hΓ hz (hl x (by simp)) h1
    have := foldlM_add_V hΓ hy.1 (fun x hx => hl x (by simp [hx])) h2
    rw [hy.2, add_assoc] at this
    simpa using this

theorem diff_V (hΓ : SortCtx Γ) (hA : AddOk Δ) {δ : Derivation ℤ L L} (hδ : Derives Δ ρ δ) : ∀ (n : ℕ),
    (∀ x r : SX K, Def ρ x → diff' Γ Δ n x = .ok r → V ρ r (δ (sval ρ x))) ∧ (∀ x r : SX K, Def ρ x → diff Γ Δ n x = .ok r → V ρ r (δ (sval ρ x))) := by
  intro n
  induction n with
  | zero => exact ⟨fun x r _ h => by simp [diff'] at h, fun x r _ h => by simp [diff] at h⟩
  | succ n ih =>
    obtain ⟨ih1, ih2⟩ := ih
    have hzero : V ρ (.zero : SX K) 0 := ⟨by simp [Def], by simp [sval]⟩
    refine ⟨fun x r hx h => ?_, fun x r hx h => ?_⟩
    · cases x with
      | zero => simp only [diff', Except.ok.injEq] at h; subst h; simpa [sval] using hzero
      | one => simp only [diff', Except.ok.injEq] at h; subst h; simpa [sval] using hzero
      | val k =>
        simp only [diff', Except.ok.injEq] at h
        subst h
        rw [sval, ← hδ.val]
        exact create_V _
      | sym a =>
        simp only [diff', Except.ok.injEq] at h
        subst h
        rw [sval]
        exact hδ.sym a
      | plus l =>
        rw [diff'] at h
        obtain ⟨ds, h1, h2⟩ := Except.bind_ok h
        rw [Def, defs_iff] at hx
        obtain ⟨d1, e1⟩ := mapM_V (ρ := ρ) (g := fun x => δ (sval ρ x)) (fun x hx' y hy => ih2 x y (hx x hx') hy) h1
        have := foldlM_add_V hΓ hzero.1 d1 h2
        rw [hzero.2, zero_add, e1] at this
        rw [sval, svals_map, map_list_sum, List.map_map]
        exact this
      | times l =>
        match l, hx, h with
        | [], hx, h => simp [diff'] at h
        | x :: l, hx, h =>
          rw [diff'] at h
          obtain ⟨rest, h1, h⟩ := Except.bind_ok h
          obtain ⟨dx, h2, h⟩ := Except.bind_ok h
          obtain ⟨a, h3, h⟩ := Except.bind_ok h
          obtain ⟨dr, h4, h⟩ := Except.bind_ok h
          obtain ⟨b, h5, h⟩ := Except.bind_ok h
          rw [Def, Defs, defs_iff] at hx
          have v1 := timesCreate_V hΓ hx.2 h1
          have v2 := ih2 x dx hx.1 h2
          have v3 := mul_V hΓ v2.1 v1.1 h3
          have v4 := ih2 rest dr v1.1 h4
          have v5 := mul_V hΓ hx.1 v4.1 h5
          have v := add_V hΓ v3.1 v5.1 h
          refine ⟨v.1, v.2.trans ?_⟩
          rw [v3.2, v5.2, v2.2, v4.2, v1.2, sval, svals, List.prod_cons, svals_map, Derivation.leibniz]
          simp only [smul_eq_mul]
          ring
      | pow b e =>
        rw [diff'] at h
        obtain ⟨inner, h1, h⟩ := Except.bind_ok h
        rw [Def] at hx
        have v1 := ih1 b inner hx.1 h1
        split at h
        · rename_i hz
          cases h
          refine ⟨hzero.1, ?_⟩
          rw [sval, sval, Derivation.leibniz_zpow, ← v1.2, isZero_val hz]
          simp
        · obtain ⟨p, h2, h⟩ := Except.bind_ok h
          obtain ⟨q, h3, h⟩ := Except.bind_ok h
          have he := create_V (ρ := ρ) (e : K)
          by_cases he0 : e = 0
          · subst he0
            have hc : create ((0 : ℤ) : K) = .zero := by simp [create]
            rw [hc] at h3
            cases h3
            cases h
            refine ⟨hzero.1, ?_⟩
            rw [hzero.2, sval]
            simp
          · have v2 := powCreate_V b (e - 1) p hx.1 (fun hlt => hx.2 (by omega)) h2
            have v3 := mul_V hΓ he.1 v2.1 h3
            have v := mul_V hΓ v3.1 v1.1 h
            refine ⟨v.1, v.2.trans ?_⟩
            rw [v3.2, he.2, v2.2, v1.2, sval, Derivation.leibniz_zpow]
            simp [mul_assoc]
    · rw [diff] at h
      split at h
      · obtain ⟨d, h1, h⟩ := Except.bind_ok h
        have v1 := ih1 x d hx h1
        split at h
        · cases h
          exact v1
        · have := expand_V hΓ hA n d r v1.1 h
          rw [v1.2] at this
          exact this
      · rename_i hd
        cases h
        rw [not_depends hδ x (by simpa using hd)]
        exact hzero

/-! ### proofs: series -/

/-- the list `r` has defined elements, and they are the first `order + 1` coefficients of `f` -/
def IsSer (ρ : ℕ → L) (f : PowerSeries L) (order : ℕ) (r : List (SX K)) : Prop := (∀ x ∈ r, Def ρ x) ∧ IsTrunc f order (r.map (sval ρ))

theorem at_V {f : PowerSeries L} {order j : ℕ} {c : List (SX K)} {x : SX K} (h : IsSer ρ f order c) (hx : at? c j = .ok x) :
    V ρ x (PowerSeries.coeff j f) := by
  have h1 := at?_ok hx
  exact ⟨h.1 x (List.mem_of_getElem? h1), isTrunc_get h.2 (by rw [List.getElem?_map, h1]; rfl)⟩

theorem sumLoop_V (hΓ : SortCtx Γ) : ∀ {l : List (SX K)} {z r : SX K}, Def ρ z → (∀ x ∈ l, Def ρ x) →
    l.foldlM (fun sum x => if isZero x then (.ok sum : Res (SX K)) else add Γ sum x) z = .ok r → V ρ r (sval ρ z + (l.map (sval ρ)).sum)
  | [], z, r, hz, _, h => by cases h; exact ⟨hz, by simp⟩
  | x :: l, z, r, hz, hl, h => by
    rw [List.foldlM_cons] at h
    obtain ⟨y, h1, h2⟩ := Except.bind_ok h
    have hy : V ρ y (sval ρ z + sval ρ x) := by
      split at h1
      · rename_i hx
        cases h1
        exact ⟨hz, by rw [isZero_val hx, add_zero]⟩
      · exact add_V hΓ hz (hl x (by simp)) h1
    have := sumLoop_V hΓ hy.1 (fun x hx => hl x (by simp [hx])) h2
    rw [hy.2, add_assoc] at this
    simpa using this

theorem mapM_range_V {f : ℕ → Res (SX K)} {g : ℕ → L} {l : List ℕ} {r : List (SX K)} (hf : ∀ j y, f j = .ok y → V ρ y (g j)) (h : l.mapM f = .ok r) :
    (∀ y ∈ r, Def ρ y) ∧ r.map (sval ρ) = l.map g := by
  have h1 := mapM_ok_forall₂ h
  clear h
  induction h1 with
  | nil => simp
  | @cons j y l r h1 _ ih =>
    have := hf j y h1
    refine ⟨fun z hz => ?_, by simp [ih.2, this.2]⟩
    rcases List.mem_cons.1 hz with rfl | hz
    · exact this.1
    · exact ih.1 z hz

theorem coeffProd_V (hΓ : SortCtx Γ) {f g : PowerSeries L} {order : ℕ} {c1 c2 : List (SX K)} (h1 : IsSer ρ f order c1) (h2 : IsSer ρ g order c2)
    {m : ℕ} {r : SX K} (h : coeffProd Γ c1 c2 m = .ok r) : V ρ r (PowerSeries.coeff m (f * g)) := by
  obtain ⟨ss, h3, h⟩ := Except.bind_ok h
  obtain ⟨d, e⟩ := mapM_range_V (ρ := ρ) (g := fun k => PowerSeries.coeff k f * PowerSeries.coeff (m - k) g) (fun k y hy => by
    obtain ⟨a, ha, hy⟩ := Except.bind_ok hy
    obtain ⟨b, hb, hy⟩ := Except.bind_ok hy
    have va := at_V h1 ha
    have vb := at_V h2 hb
    split at hy
    · rename_i hz
      cases hy
      refine ⟨by simp [Def], ?_⟩
      rw [← va.2, ← vb.2]
      rcases Bool.or_eq_true_iff.mp hz with hz | hz <;> simp [isZero_val hz, sval]
    · rw [← va.2, ← vb.2]
      exact mul_V hΓ va.1 vb.1 hy) h3
  cases ss with
  | nil => cases h
  | cons s rest =>
    have v := sumLoop_V hΓ (d s (by simp)) (fun x hx => d x (by simp [hx])) h
    refine ⟨v.1, v.2.trans ?_⟩
    rw [← List.sum_cons, ← List.map_cons, e, sum_range_list, PowerSeries.coeff_mul,
      Finset.Nat.sum_antidiagonal_eq_sum_range_succ (fun i j => PowerSeries.coeff i f * PowerSeries.coeff j g)]

theorem prod_series_V (hΓ : SortCtx Γ) {f g : PowerSeries L} {order : ℕ} {c1 c2 r : List (SX K)} (h1 : IsSer ρ f order c1) (h2 : IsSer ρ g order c2)
    (h : (List.range (order + 1)).mapM (coeffProd Γ c1 c2) = .ok r) : IsSer ρ (f * g) order r :=
  mapM_range_V (g := fun m => PowerSeries.coeff m (f * g)) (fun _ _ hy => coeffProd_V hΓ h1 h2 hy) h

omit [DecidableEq K] in
theorem const_series {x : SX K} (hx : Def ρ x) (order : ℕ) : IsSer ρ (PowerSeries.C (sval ρ x)) order (x :: List.replicate order (.zero : SX K)) := by
  refine ⟨fun y hy => ?_, ?_⟩
  · rcases List.mem_cons.1 hy with rfl | hy
    · exact hx
    · rw [List.eq_of_mem_replicate hy]; simp [Def]
  · unfold IsTrunc
    rw [List.range_succ_eq_map, List.map_cons, List.map_cons, List.map_map, List.map_replicate]
    congr 1
    · simp
    rw [eq_comm, List.eq_replicate_iff]
    constructor
    · simp
    · intro b hb
      obtain ⟨k, _, rfl⟩ := List.mem_map.mp hb
      simp [sval, PowerSeries.coeff_C]

theorem stable_V {x : SX K} {a : L} (h : V ρ x a) : V ρ (stable x) a := by
  unfold stable
  split
  · rename_i hz; exact ⟨by simp [Def], by rw [← h.2, isZero_val hz]; simp [sval]⟩
  · split
    · rename_i hz; exact ⟨by simp [Def], by rw [← h.2, isOne_val hz]; simp [sval]⟩
    · exact h

theorem stable_series {f : PowerSeries L} {order : ℕ} {r : List (SX K)} (h : IsSer ρ f order r) : IsSer ρ f order (r.map stable) := by
  refine ⟨fun y hy => ?_, ?_⟩
  · obtain ⟨x, hx, rfl⟩ := List.mem_map.1 hy
    exact (stable_V ⟨h.1 x hx, rfl⟩).1
  · have : (r.map stable).map (sval ρ) = r.map (sval ρ) := by
      rw [List.map_map]
      exact List.map_congr_left fun x hx => (stable_V (ρ := ρ) ⟨h.1 x hx, rfl⟩).2
    rw [this]
    exact h.2

theorem series_V (hΓ : SortCtx Γ) (hs : ∀ a j, Def ρ (Δ.symSeries a j)) (order : ℕ) : ∀ (n : ℕ) (x : SX K) (r : List (SX K)),
    series Γ Δ order n x = .ok r → IsSer ρ (ssem Δ ρ x) order r := by
  intro n
  induction n with
  | zero => intro x r h; cases h
  | succ n ih =>
    intro x r h
    rw [series] at h
    obtain ⟨r0, h0, rfl⟩ := QNET.Indexed.Except.map_ok h
    clear h
    rename' h0 => h
    apply stable_series
    cases x with
    | zero =>
      cases h
      have := const_series (ρ := ρ) (x := (.zero : SX K)) (by simp [Def]) order
      simpa [ssem, sval] using this
    | one =>
      cases h
      have := const_series (ρ := ρ) (x := (.one : SX K)) (by simp [Def]) order
      simpa [ssem, sval] using this
    | val k =>
      simp only [seriesStep] at h
      split at h
      · rename_i c hc
        cases h
        refine ⟨fun y hy => ?_, ?_⟩
        · obtain ⟨j, _, rfl⟩ := List.mem_map.1 hy
          exact (create_V _).1
        · unfold IsTrunc
          rw [List.map_map]
          refine List.map_congr_left fun j _ => ?_
          simp [ssem, hc, (create_V (ρ := ρ) (c j)).2]
      · cases h
    | sym a =>
      cases h
      refine ⟨fun y hy => ?_, ?_⟩
      · obtain ⟨j, _, rfl⟩ := List.mem_map.1 hy
        exact hs a j
      · unfold IsTrunc
        rw [List.map_map]
        refine List.map_congr_left fun j _ => ?_
        simp [ssem]
    | plus l =>
      obtain ⟨ls, h1, h2⟩ := Except.bind_ok h
      rw [ssem, ssems_map]
      have hf := (mapM_ok_forall₂ h1).imp (fun x c hx => ih x c hx)
      refine mapM_range_V (g := fun j => PowerSeries.coeff j (l.map (ssem Δ ρ)).sum) (fun j y hy => ?_) h2
      obtain ⟨t, ht, hy⟩ := Except.bind_ok hy
      have key : (∀ z ∈ t, Def ρ z) ∧ (t.map (sval ρ)).sum = PowerSeries.coeff j (l.map (ssem Δ ρ)).sum := by
        have h3 := mapM_ok_forall₂ ht
        clear * - hf h3
        induction hf generalizing t with
        | nil => cases h3; simp
        | @cons x c l ls h4 _ ih' =>
          cases h3 with
          | @cons _ z _ t' h5 h6 =>
            obtain ⟨a1, a2⟩ := ih' t' h6
            have vz := at_V h4 h5
            refine ⟨fun w hw => ?_, by simp [a2, vz.2]⟩
            rcases List.mem_cons.1 hw with rfl | hw
            · exact vz.1
            · exact a1 w hw
      rw [← key.2]
      exact plusCreate_V hΓ key.1 hy
    | times l =>
      match l, h with
      | [], h => cases h
      | [x, y], h =>
        obtain ⟨c1, h1, h⟩ := Except.bind_ok h
        obtain ⟨c2, h2, h⟩ := Except.bind_ok h
        have := prod_series_V hΓ (ih _ _ h1) (ih _ _ h2) h
        simpa [ssem, ssems] using this
      | [x], h =>
        obtain ⟨c1, h1, h⟩ := Except.bind_ok h
        obtain ⟨c2, h2, h⟩ := Except.bind_ok h
        have := prod_series_V hΓ (ih _ _ h1) (ih _ _ h2) h
        simpa [ssem, ssems] using this
      | x :: y :: z :: l, h =>
        obtain ⟨c1, h1, h⟩ := Except.bind_ok h
        obtain ⟨c2, h2, h⟩ := Except.bind_ok h
        have := prod_series_V hΓ (ih _ _ h1) (ih _ _ h2) h
        simpa [ssem, ssems] using this
    | pow b e =>
      simp only [seriesStep] at h
      split at h
      · have := ih _ _ h
        rw [ssem, ssems_map, List.map_replicate, List.prod_replicate] at this
        rw [ssem]
        exact this
      · cases h

/-! ### C100 -/

/-- C100: `expand()` of a scalar returns a scalar with the same value (and without new divisions by zero). -/
theorem C100_expand (hΓ : SortCtx Γ) (hA : AddOk Δ) {n : ℕ} {x r : SX K} (hx : Def ρ x) (h : expand Γ Δ n x = .ok r) : Def ρ r ∧ sval ρ r = sval ρ x :=
  expand_V hΓ hA n x r hx h

/-- C100: `diff(s)` of a scalar built from sums, products and integer powers denotes the derivative of its value. -/
theorem C100_diff_partial (hΓ : SortCtx Γ) (hA : AddOk Δ) {δ : Derivation ℤ L L} (hδ : Derives Δ ρ δ) {n : ℕ} {x r : SX K} (hx : Def ρ x)
    (h : diff Γ Δ n x = .ok r) : Def ρ r ∧ sval ρ r = δ (sval ρ x) :=
  (diff_V hΓ hA hδ n).2 x r hx h

/-- C100: `series_expand(s, about, order)` returns `order + 1` scalars, the coefficients of the power series of the scalar. -/
theorem C100_series_partial (hΓ : SortCtx Γ) (hs : ∀ a j, Def ρ (Δ.symSeries a j)) {order n : ℕ} {x : SX K} {r : List (SX K)}
    (h : series Γ Δ order n x = .ok r) : r.length = order + 1 ∧
      ∀ (j : ℕ) (c : SX K), r[j]? = some c → Def ρ c ∧ sval ρ c = PowerSeries.coeff j (ssem Δ ρ x) := by
  obtain ⟨h1, h2⟩ := series_V hΓ hs order n x r h
  refine ⟨?_, fun j c hc => ⟨h1 c (List.mem_of_getElem? hc), isTrunc_get h2 (by rw [List.getElem?_map, hc]; rfl)⟩⟩
  have := congrArg List.length h2
  simpa using this

end

/-- C100: a power with a negative exponent is never expanded in a series, singular or not: `ValueError`. -/
theorem C100_refuted_negative (order n : ℕ) (b : SX K) (e : ℤ) (he : e ≤ 0) : series Γ Δ order (n + 1) (.pow b e) = .error .valueError := by
  rw [series, seriesStep, if_neg (by omega)]
  rfl

/-- C100: powers of sums are not expanded: `(a + b) * (a + b)` is `(a + b)**2`, which `expand()` returns unchanged. -/
theorem C100_refuted_square (Δ : CalcCtx ℚ) (n : ℕ) : let s : SX ℚ := .plus [.sym 0, .sym 1]
    mul (Ctx.plain ℚ) s s = .ok (.pow s 2) ∧ expand (Ctx.plain ℚ) Δ (n + 1) (.pow s 2) = .ok (.pow s 2) :=
  ⟨by kernel_rfl, rfl⟩

/-- `ScalarPower._diff` (scalar_algebra.py lines 1071-1077) for a base and an exponent that depend on the parameter `t`, as functions of it: `b` with
the derivative `db`, and `e` -/
noncomputable def powerDiff (b db e : ℝ → ℝ) : ℝ → ℝ := open Classical in if db = 0 then 0 else fun t => e t * b t ^ (e t - 1) * db t

/-- C100: the exact error of `diff` for a power whose exponent depends on the parameter: the term `e' log(b) b^e` is missing. -/
theorem C100_exponent_error {b db e : ℝ → ℝ} {de t : ℝ} (hb : HasDerivAt b (db t) t) (he : HasDerivAt e de t) (h0 : 0 < b t) :
    HasDerivAt (fun t => b t ^ e t) (powerDiff b db e t + de * Real.log (b t) * b t ^ e t) t := by
  have h := hb.rpow he h0
  convert h using 1
  unfold powerDiff
  split
  · rename_i hz
    simp [hz]
    ring
  · ring

/-- C100 is false for exponents that depend on the parameter: the derivative of `c**t` is returned as Zero. -/
theorem C100_refuted_exponent {c : ℝ} (h0 : 0 < c) (h1 : c ≠ 1) (t : ℝ) :
    powerDiff (fun _ => c) 0 id t = 0 ∧ HasDerivAt (fun t : ℝ => c ^ (id t)) (Real.log c * c ^ t) t ∧ Real.log c * c ^ t ≠ 0 := by
  refine ⟨by simp [powerDiff], ?_, ?_⟩
  · have h := C100_exponent_error (b := fun _ => c) (db := 0) (e := id) (de := 1) (t := t) (by simpa using hasDerivAt_const t c) (hasDerivAt_id t) h0
    simpa [powerDiff] using h
  · refine mul_ne_zero ?_ (Real.rpow_pos_of_pos h0 t).ne'
    intro hl
    rcases Real.log_eq_zero.1 hl with h | h | h
    · exact h0.ne' h
    · exact h1 h
    · linarith

/-- sample: values are constant, symbol 0 depends on the parameter, with derivative symbol 1 and expansion symbols 10, 11, ... -/
def sampleCalc : CalcCtx ℚ where
  addArgs _ := none
  symDep a := a == 0
  valDep _ := false
  symDiff a := if a = 0 then .sym 1 else .zero
  valDiff _ := 0
  symSeries a j := if a = 0 then .sym (10 + j) else if j = 0 then .sym a else .zero
  valSeries k := some (fun j => if j = 0 then k else 0)

/-- `d(x^3)/dt = 3 x^2 x'` -/
example : diff (Ctx.plain ℚ) sampleCalc 5 (.pow (.sym 0) 3) = .ok (.times [.val 3, .pow (.sym 0) 2, .sym 1]) := by kernel_rfl

/-- `y (x + 2) = x y + 2 y` -/
example : expand (Ctx.plain ℚ) sampleCalc 5 (.times [.sym 2, .plus [.sym 0, .val 2]]) =
    .ok (.plus [.times [.sym 2, .val 2], .times [.sym 2, .sym 0]]) := by kernel_rfl

/-- `x^2` up to first order: `x0^2`, `x0 x1 + x1 x0` -/
example : ∃ r, series (Ctx.plain ℚ) sampleCalc 1 5 (.pow (.sym 0) 2) = .ok r ∧ r.length = 2 := ⟨[.pow (.sym 10) 2, .plus [.times [.sym 10, .sym 11], .times [.sym 11, .sym 10]]], by kernel_rfl, rfl⟩

example : SortCtx (Ctx.plain ℚ) ∧ AddOk sampleCalc ∧ Derives sampleCalc (fun a => if a = 0 then (2 : ℚ) else 0) (0 : Derivation ℤ ℚ ℚ) :=
  ⟨⟨fun _ => .refl _, fun _ => .refl _⟩, (fun _ _ h => by cases h), ⟨fun a => by
    by_cases h : a = 0 <;> simp [sampleCalc, h, V, Def, sval], fun a _ => rfl, fun k => by simp [sampleCalc], fun k _ => rfl⟩⟩

end QNET.Scalar
