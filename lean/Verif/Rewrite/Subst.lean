import Verif.Rewrite.Model

/-!
# C43: substitution
-/

namespace QNET.Rewrite

open QNET.Pattern (Ex)

/-! ### specification -/

/-- the sub-expression at a position (arguments first, then keyword arguments) -/
def Ex.at : Ex → List ℕ → Option Ex
  | e, [] => some e
  | .leaf _, _ :: _ => none
  | .node _ as _ vs, i :: p => ((as ++ vs)[i]?).bind (fun x => Ex.at x p)

/-- the same object, or expressions of the same class with the same number of arguments and the same keywords -/
def SameHead : Ex → Ex → Prop
  | .leaf a, .leaf b => a = b
  | .node c as ks vs, .node d bs ls ws => c = d ∧ as.length = bs.length ∧ ks = ls ∧ vs.length = ws.length
  | _, _ => False

/-- the instantiation that does not simplify -/
def plain : Mk := fun c as ks vs => .ok (.node c as ks vs)

mutual
/-- sub-expressions, with the expression itself -/
def subs : Ex → List Ex
  | .leaf a => [.leaf a]
  | .node c as ks vs => .node c as ks vs :: (subsL as ++ subsL vs)
/-- of a list -/
def subsL : List Ex → List Ex
  | [] => []
  | a :: as => subs a ++ subsL as
end

mutual
/-- the value of an expression: `ρ` for the objects without arguments, `den` for operations -/
def eval {V : Type} (den : ℕ → List V → List ℕ → List V → V) (ρ : ℕ → V) : Ex → V
  | .leaf a => ρ a
  | .node c as ks vs => den c (evalL den ρ as) ks (evalL den ρ vs)
/-- the values of a list -/
def evalL {V : Type} (den : ℕ → List V → List ℕ → List V → V) (ρ : ℕ → V) : List Ex → List V
  | [] => []
  | a :: as => eval den ρ a :: evalL den ρ as
end

mutual
/-- singleton expressions have no arguments -/
def SinglesPlain (single : ℕ → Bool) : Ex → Prop
  | .leaf _ => True
  | .node c as _ vs => (single c = true → as = [] ∧ vs = []) ∧ SinglesPlainL single as ∧ SinglesPlainL single vs
/-- lists -/
def SinglesPlainL (single : ℕ → Bool) : List Ex → Prop
  | [] => True
  | a :: as => SinglesPlain single a ∧ SinglesPlainL single as
end

variable {mk : Mk} {single : ℕ → Bool} {m : Ex → Option Ex}

/-- `create` never raises `AttributeError` -/
def NoAttrError (mk : Mk) : Prop := ∀ c as ks vs, mk c as ks vs ≠ .error .attributeError

/-! ### no `AttributeError` -/

mutual
theorem subst_noAttr (h : NoAttrError mk) : ∀ e : Ex, subst mk single m e ≠ .error .attributeError
  | .leaf a => by simp [subst]
  | .node c as ks vs => by
    simp only [subst]
    unfold catchAttr
    split
    · simp
    · rename_i hx
      exact hx
theorem substL_noAttr (h : NoAttrError mk) : ∀ l : List Ex, substL mk single m l ≠ .error .attributeError
  | [] => by simp [substL]
  | a :: l => by
    have h1 : subst mk single m a ≠ .error .attributeError := subst_noAttr h a
    have h2 : substL mk single m l ≠ .error .attributeError := substL_noAttr h l
    simp only [substL]
    cases ha : subst mk single m a with
    | error x => intro hc; simp only [bind, Except.bind] at hc; injection hc with hc; rw [ha, hc] at h1; exact h1 rfl
    | ok v =>
      cases hl : substL mk single m l with
      | error x => intro hc; simp only [bind, Except.bind] at hc; injection hc with hc; rw [hl, hc] at h2; exact h2 rfl
      | ok vs => simp [bind, Except.bind]
end

/-- without `AttributeError`s, the `except` clause does nothing, and the method and the function `substitute` agree -/
theorem subst_eq_method (h : NoAttrError mk) (e : Ex) : subst mk single m e = substMethod mk single m e := by
  unfold substMethod substTop
  cases e with
  | leaf a =>
    simp only [subst]
    cases m (.leaf a) <;> rfl
  | node c as ks vs =>
    simp only [subst]
    unfold catchAttr
    split
    · rename_i hx
      exfalso
      revert hx
      cases hm : m (.node c as ks vs) with
      | some v => simp
      | none =>
        simp only
        split
        · simp
        · have h1 := substL_noAttr h (single := single) (m := m) as
          have h2 := substL_noAttr h (single := single) (m := m) vs
          cases ha : substL mk single m as with
          | error x => intro hc; simp only [bind, Except.bind] at hc; injection hc with hc; rw [ha, hc] at h1; exact h1 rfl
          | ok v =>
            cases hl : substL mk single m vs with
            | error x => intro hc; simp only [bind, Except.bind] at hc; injection hc with hc; rw [hl, hc] at h2; exact h2 rfl
            | ok ws => exact h _ _ _ _
    · rfl

/-! ### no occurrence -/

mutual
theorem subst_none : ∀ e : Ex, (∀ x ∈ subs e, m x = none) → (∀ c as ks vs, Ex.node c as ks vs ∈ subs e → mk c as ks vs = .ok (.node c as ks vs)) →
    subst mk single m e = .ok e
  | .leaf a, h, _ => by simp [subst, h (.leaf a) (by simp [subs])]
  | .node c as ks vs, h, hk => by
    have h1 := substL_none as (fun x hx => h x (by simp [subs, hx])) (fun c' as' ks' vs' hx => hk c' as' ks' vs' (by simp [subs, hx]))
    have h2 := substL_none vs (fun x hx => h x (by simp [subs, hx])) (fun c' as' ks' vs' hx => hk c' as' ks' vs' (by simp [subs, hx]))
    simp only [subst, h (.node c as ks vs) (by simp [subs])]
    split
    · rfl
    · rw [h1, h2]
      simp only [bind, Except.bind]
      rw [hk c as ks vs (by simp [subs])]
      rfl
theorem substL_none : ∀ l : List Ex, (∀ x ∈ subsL l, m x = none) → (∀ c as ks vs, Ex.node c as ks vs ∈ subsL l → mk c as ks vs = .ok (.node c as ks vs)) →
    substL mk single m l = .ok l
  | [], _, _ => rfl
  | a :: l, h, hk => by
    have h1 := subst_none a (fun x hx => h x (by simp [subsL, hx])) (fun c' as' ks' vs' hx => hk c' as' ks' vs' (by simp [subsL, hx]))
    have h2 := substL_none l (fun x hx => h x (by simp [subsL, hx])) (fun c' as' ks' vs' hx => hk c' as' ks' vs' (by simp [subsL, hx]))
    simp only [substL, h1, h2]
    rfl
end

/-- C43: substituting a map none of whose keys occurs in the expression returns the expression, provided that re-instantiating its
sub-expressions gives them back (they are fully simplified). -/
theorem C43_no_occurrence (mk : Mk) (single : ℕ → Bool) (m : Ex → Option Ex) (e : Ex) (h : ∀ x ∈ subs e, m x = none)
    (hk : ∀ c as ks vs, Ex.node c as ks vs ∈ subs e → mk c as ks vs = .ok (.node c as ks vs)) : subst mk single m e = .ok e :=
  subst_none e h hk

/-! ### positions -/

theorem substL_spec : ∀ {l l' : List Ex}, substL mk single m l = .ok l' → l'.length = l.length ∧ ∀ (i : ℕ) (x : Ex), l[i]? = some x → ∃ y, l'[i]? = some y ∧ subst mk single m x = .ok y
  | [], l', h => by
    simp only [substL] at h
    cases h
    simp
  | a :: l, l', h => by
    simp only [substL] at h
    cases ha : subst mk single m a with
    | error x => rw [ha] at h; cases h
    | ok v =>
      cases hl : substL mk single m l with
      | error x => rw [ha, hl] at h; cases h
      | ok vs =>
        rw [ha, hl] at h
        cases h
        obtain ⟨h1, h2⟩ := substL_spec hl
        refine ⟨by simp [h1], ?_⟩
        intro i x hx
        cases i with
        | zero => simp only [List.getElem?_cons_zero, Option.some.injEq] at hx; subst hx; exact ⟨v, by simp, ha⟩
        | succ i => simpa using h2 i x (by simpa using hx)

/-- what substitution without simplification does to a node that is not a key -/
theorem subst_node {c : ℕ} {as : List Ex} {ks : List ℕ} {vs : List Ex} {r : Ex} (hm : m (.node c as ks vs) = none)
    (h : subst plain (fun _ => false) m (.node c as ks vs) = .ok r) :
    ∃ as' vs', r = .node c as' ks vs' ∧ substL plain (fun _ => false) m as = .ok as' ∧ substL plain (fun _ => false) m vs = .ok vs' := by
  have hna : NoAttrError plain := fun _ _ _ _ => by simp [plain]
  rw [subst_eq_method hna] at h
  simp only [substMethod, substTop, hm] at h
  cases ha : substL plain (fun _ => false) m as with
  | error x => rw [ha] at h; cases h
  | ok as' =>
    cases hl : substL plain (fun _ => false) m vs with
    | error x => rw [ha, hl] at h; cases h
    | ok vs' =>
      rw [ha, hl] at h
      cases h
      exact ⟨as', vs', rfl, rfl, rfl⟩

theorem subst_key {e v r : Ex} (hm : m e = some v) (h : subst plain (fun _ => false) m e = .ok r) : r = v := by
  have hna : NoAttrError plain := fun _ _ _ _ => by simp [plain]
  rw [subst_eq_method hna] at h
  simp only [substMethod, substTop, hm] at h
  cases h; rfl

theorem subst_item {as as' vs vs' : List Ex} (h1 : substL plain (fun _ => false) m as = .ok as') (h2 : substL plain (fun _ => false) m vs = .ok vs')
    {i : ℕ} {x : Ex} (hx : (as ++ vs)[i]? = some x) : ∃ y, (as' ++ vs')[i]? = some y ∧ subst plain (fun _ => false) m x = .ok y := by
  obtain ⟨l1, g1⟩ := substL_spec h1
  obtain ⟨l2, g2⟩ := substL_spec h2
  by_cases hi : i < as.length
  · rw [List.getElem?_append_left hi] at hx
    rw [List.getElem?_append_left (by omega)]
    exact g1 i x hx
  · rw [List.getElem?_append_right (by omega)] at hx
    rw [List.getElem?_append_right (by omega), l1]
    exact g2 _ x hx

/-- C43: substitution replaces every maximal sub-expression that is a key by its value, as it is: no further substitution takes place
inside of the value, nor for keys inside of a replaced sub-expression. -/
theorem C43_maximal_replaced (m : Ex → Option Ex) : ∀ (p : List ℕ) (e r x v : Ex), subst plain (fun _ => false) m e = .ok r → Ex.at e p = some x → m x = some v →
    (∀ q, q <+: p → q ≠ p → ∀ y, Ex.at e q = some y → m y = none) → Ex.at r p = some v
  | [], e, r, x, v, h, hx, hv, _ => by
    have : e = x := by cases e <;> simpa [Ex.at] using hx
    subst this
    rw [subst_key hv h]
    cases v <;> rfl
  | i :: p, .leaf a, r, x, v, h, hx, hv, _ => by simp [Ex.at] at hx
  | i :: p, .node c as ks vs, r, x, v, h, hx, hv, hq => by
    have h0 := hq [] (by simp) (by simp) (.node c as ks vs) rfl
    obtain ⟨as', vs', rfl, h1, h2⟩ := subst_node h0 h
    simp only [Ex.at] at hx ⊢
    rw [Option.bind_eq_some_iff] at hx
    obtain ⟨z, hz, hx⟩ := hx
    obtain ⟨y, hy, hs⟩ := subst_item h1 h2 hz
    rw [hy]
    refine C43_maximal_replaced m p z y x v hs hx hv ?_
    intro q hqp hne w hw
    refine hq (i :: q) (by simpa using hqp) (by simpa using hne) w ?_
    simp only [Ex.at, hz, Option.bind_some]
    exact hw

/-- C43: everything else stays: at a position outside of the replaced sub-expressions the result has the same class and keywords and the same
number of arguments. -/
theorem C43_rest_unchanged (m : Ex → Option Ex) : ∀ (p : List ℕ) (e r x : Ex), subst plain (fun _ => false) m e = .ok r → Ex.at e p = some x →
    (∀ q, q <+: p → ∀ y, Ex.at e q = some y → m y = none) → ∃ x', Ex.at r p = some x' ∧ SameHead x x'
  | [], e, r, x, h, hx, hq => by
    have : e = x := by cases e <;> simpa [Ex.at] using hx
    subst this
    have h0 := hq [] (by simp) e hx
    cases e with
    | leaf a =>
      simp only [subst, h0] at h
      cases h
      exact ⟨_, rfl, rfl⟩
    | node c as ks vs =>
      obtain ⟨as', vs', rfl, h1, h2⟩ := subst_node h0 h
      exact ⟨_, rfl, rfl, (substL_spec h1).1.symm, rfl, (substL_spec h2).1.symm⟩
  | i :: p, .leaf a, r, x, h, hx, _ => by simp [Ex.at] at hx
  | i :: p, .node c as ks vs, r, x, h, hx, hq => by
    have h0 := hq [] (by simp) (.node c as ks vs) rfl
    obtain ⟨as', vs', rfl, h1, h2⟩ := subst_node h0 h
    simp only [Ex.at] at hx ⊢
    rw [Option.bind_eq_some_iff] at hx
    obtain ⟨z, hz, hx⟩ := hx
    obtain ⟨y, hy, hs⟩ := subst_item h1 h2 hz
    rw [hy]
    refine C43_rest_unchanged m p z y x hs hx ?_
    intro q hqp w hw
    refine hq (i :: q) (by simpa using hqp) w ?_
    simp only [Ex.at, hz, Option.bind_some]
    exact hw

/-! ### evaluation -/

mutual
theorem subst_eval {V : Type} {den : ℕ → List V → List ℕ → List V → V} {ρ : ℕ → V} (hna : NoAttrError mk)
    (hmk : ∀ c as ks vs x, mk c as ks vs = .ok x → eval den ρ x = den c (evalL den ρ as) ks (evalL den ρ vs))
    (hkey : ∀ c as ks vs, m (.node c as ks vs) = none) : ∀ (e r : Ex), SinglesPlain single e → subst mk single m e = .ok r →
    eval den ρ r = eval den (fun a => eval den ρ ((m (.leaf a)).getD (.leaf a))) e
  | .leaf a, r, _, h => by
    simp only [subst] at h
    cases h
    rfl
  | .node c as ks vs, r, hs, h => by
    rw [subst_eq_method hna] at h
    simp only [substMethod, substTop, hkey] at h
    simp only [SinglesPlain] at hs
    split at h
    · rename_i hc
      cases h
      obtain ⟨rfl, rfl⟩ := hs.1 hc
      simp [eval, evalL]
    · cases ha : substL mk single m as with
      | error x => rw [ha] at h; cases h
      | ok as' =>
        cases hl : substL mk single m vs with
        | error x => rw [ha, hl] at h; cases h
        | ok vs' =>
          rw [ha, hl] at h
          simp only [bind, Except.bind] at h
          rw [hmk _ _ _ _ _ h, substL_eval hna hmk hkey as as' hs.2.1 ha, substL_eval hna hmk hkey vs vs' hs.2.2 hl]
          rfl
theorem substL_eval {V : Type} {den : ℕ → List V → List ℕ → List V → V} {ρ : ℕ → V} (hna : NoAttrError mk)
    (hmk : ∀ c as ks vs x, mk c as ks vs = .ok x → eval den ρ x = den c (evalL den ρ as) ks (evalL den ρ vs))
    (hkey : ∀ c as ks vs, m (.node c as ks vs) = none) : ∀ (l l' : List Ex), SinglesPlainL single l → substL mk single m l = .ok l' →
    evalL den ρ l' = evalL den (fun a => eval den ρ ((m (.leaf a)).getD (.leaf a))) l
  | [], l', _, h => by simp only [substL] at h; cases h; rfl
  | a :: l, l', hs, h => by
    simp only [substL] at h
    simp only [SinglesPlainL] at hs
    cases ha : subst mk single m a with
    | error x => rw [ha] at h; cases h
    | ok v =>
      cases hl : substL mk single m l with
      | error x => rw [ha, hl] at h; cases h
      | ok vs =>
        rw [ha, hl] at h
        cases h
        simp only [evalL]
        rw [subst_eval hna hmk hkey a v hs.1 ha, substL_eval hna hmk hkey l vs hs.2 hl]
end

/-- C43: evaluation after the substitution of symbols is evaluation under the updated valuation, if `create` preserves values. -/
theorem C43_evaluation {V : Type} (den : ℕ → List V → List ℕ → List V → V) (ρ : ℕ → V) (mk : Mk) (single : ℕ → Bool) (m : Ex → Option Ex)
    (hna : NoAttrError mk) (hmk : ∀ c as ks vs x, mk c as ks vs = .ok x → eval den ρ x = den c (evalL den ρ as) ks (evalL den ρ vs))
    (hkey : ∀ c as ks vs, m (.node c as ks vs) = none) {e r : Ex} (hs : SinglesPlain single e) (h : subst mk single m e = .ok r) :
    eval den ρ r = eval den (fun a => eval den ρ ((m (.leaf a)).getD (.leaf a))) e := subst_eval hna hmk hkey e r hs h

/-- C43 fails if `create` raises `AttributeError` for the new arguments: the exception is caught, and the argument silently left as it
was, although the key occurs in it. -/
theorem C43_attribute_error_refuted : ∃ (mk : Mk) (m : Ex → Option Ex) (e : Ex), m (.leaf 1) = some (.leaf 2) ∧ (.leaf 1) ∈ subs e ∧
    substMethod mk (fun _ => false) m e = .ok e :=
  ⟨fun c as ks vs => if c = 5 ∧ as = [.leaf 2] then .error .attributeError else .ok (.node c as ks vs),
    fun e => if e = .leaf 1 then some (.leaf 2) else none, .node 0 [.node 5 [.leaf 1] [] []] [] [], by decide +kernel, by simp [subs, subsL], by rfl⟩

/-- a concrete case: swapping two symbols, in `f(x, g(y), k=x)` -/
example : subst plain (fun _ => false) (fun e => if e = .leaf 1 then some (.leaf 2) else if e = .leaf 2 then some (.leaf 1) else none)
    (.node 0 [.leaf 1, .node 3 [.leaf 2] [] []] [7] [.leaf 1]) = .ok (.node 0 [.leaf 2, .node 3 [.leaf 1] [] []] [7] [.leaf 2]) := by rfl

/-- a concrete case of `C43_evaluation`: a `create` that drops a neutral element (class 1 with a single argument is that argument) -/
example : let mk : Mk := fun c as ks vs => match c, as with
      | 1, [x] => .ok x
      | _, _ => .ok (.node c as ks vs)
    let den : ℕ → List ℤ → List ℕ → List ℤ → ℤ := fun _ as _ vs => as.sum + vs.sum
    NoAttrError mk ∧ (∀ ρ c as ks vs x, vs = [] → mk c as ks vs = .ok x → eval den ρ x = den c (evalL den ρ as) ks (evalL den ρ vs)) := by
  intro mk den
  refine ⟨?_, ?_⟩
  · intro c as ks vs
    simp only [mk]
    split <;> simp
  · intro ρ c as ks vs x hv h
    subst hv
    simp only [mk] at h
    split at h
    · cases h
      simp [den, evalL]
    · cases h
      simp [den, eval]

end QNET.Rewrite
