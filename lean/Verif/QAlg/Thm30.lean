import Verif.QAlg.Thm29

/-! # C30: `expand` -/

namespace QNET.QAlg

open QNET.Perm (Res Err)
open QNET.Indexed (Except.bind_ok mapM_ok_cons mapM_ok_forall₂)

variable {K : Type} [CommRing K] [DecidableEq K] {Γ : Ctx K}

/-- C30: `expand()` does not change the value of an expression, in any algebra (with any commuting scalars) and for any values of the
symbols, provided the special rules for pairs of symbols and the sorting of factors preserve products. -/
theorem C30_value {A : Type} [Ring A] [Algebra K A] {ρ : ℕ → A} (hΓ : SoundCtx Γ ρ) {n : ℕ} {x r : QX K} (h : expand Γ n x = .ok r) :
    val ρ r = val ρ x := expand_val hΓ n x r h

/-- C30: multiplying and adding expressions with `*`, `+` denotes the operations of the algebra. -/
theorem C30_arithmetic {A : Type} [Ring A] [Algebra K A] {ρ : ℕ → A} (hΓ : SoundCtx Γ ρ) {n : ℕ} {x y r : QX K} {c : K} :
    (mul Γ n x y = .ok r → val ρ r = val ρ x * val ρ y) ∧ (add Γ n x y = .ok r → val ρ r = val ρ x + val ρ y) ∧
    (mulScal Γ n c x = .ok r → val ρ r = c • val ρ x) := by
  obtain ⟨h1, h2⟩ := lin_sound (val_linear ρ) hΓ.sortPlus n
  refine ⟨fun h => ?_, fun h => ?_, h1 c x r⟩
  · simpa using (times_sound hΓ n).1 _ _ h
  · simpa using h2 _ _ h

/-! ## The shape of the result -/

mutual
/-- the expression contains no sum -/
def NoSum : QX K → Prop
  | .atom _ => True
  | .zero => True
  | .one => True
  | .scal _ t => NoSum t
  | .plus _ => False
  | .times l => NoSums l
  | .comm a b => NoSum a ∧ NoSum b
/-- none of the expressions contains a sum -/
def NoSums : List (QX K) → Prop
  | [] => True
  | x :: l => NoSum x ∧ NoSums l
end

omit [CommRing K] [DecidableEq K] in
theorem noSums_iff (l : List (QX K)) : NoSums l ↔ ∀ x ∈ l, NoSum x := by
  induction l with
  | nil => simp [NoSums]
  | cons x l ih => simp [NoSums, ih]

/-- fully expanded: free of sums, or a sum of expressions that are free of sums -/
def Expanded (x : QX K) : Prop := NoSum x ∨ ∃ l, x = .plus l ∧ ∀ y ∈ l, NoSum y

omit [CommRing K] [DecidableEq K] in
theorem Expanded.summands {x : QX K} (h : Expanded x) : ∀ y ∈ summandsOf x, NoSum y := by
  intro y hy
  rcases h with h | ⟨l, rfl, h⟩
  · cases x with
    | plus l => exact (by simp [NoSum] at h)
    | _ => simp only [summandsOf, List.mem_singleton] at hy; subst hy; exact h
  · exact h y hy

omit [CommRing K] [DecidableEq K] in
theorem expanded_of_summands {l : List (QX K)} (h : ∀ y ∈ l, NoSum y) : Expanded (wrapPlus l) := by
  match l, h with
  | [], _ => exact .inl (by simp [wrapPlus, NoSum])
  | [x], h => exact .inl (h x (by simp))
  | x :: y :: l, h => exact .inr ⟨_, rfl, h⟩

theorem mulScal_noSum : ∀ (n : ℕ) (c : K) (t r : QX K), NoSum t → mulScal Γ n c t = .ok r → NoSum r := by
  intro n
  induction n with
  | zero => intro c t r _ h; rw [mulScal] at h; cases h
  | succ n ih =>
    intro c t r ht h
    rw [mulScal] at h
    unfold mulScalStep at h
    split at h
    · cases h; exact ht
    split at h
    · cases h; simp [NoSum]
    cases t with
    | zero => cases h; simp [NoSum]
    | scal v A => exact ih _ _ _ (by simpa [NoSum] using ht) h
    | plus l => simp [NoSum] at ht
    | atom a => cases h; simp [NoSum]
    | one => cases h; simp [NoSum]
    | times l => cases h; simpa [NoSum] using ht
    | comm a b => cases h; simpa [NoSum] using ht

theorem coeffMap_noSum {l : List (QX K)} (h : ∀ x ∈ l, NoSum x) : ∀ p ∈ coeffMap l, NoSum p.1 := by
  intro p hp
  have : p.1 ∈ (coeffMap l).map (·.1) := List.mem_map.mpr ⟨p, hp, rfl⟩
  rw [coeffMap_mem] at this
  obtain ⟨y, hy, e⟩ := List.mem_map.mp this
  rw [← e]
  have := h y hy
  cases y <;> simpa [split, NoSum] using this

omit [CommRing K] [DecidableEq K] in
theorem forall₂_forall {α β : Type} {R : α → β → Prop} {P : α → Prop} {Q : β → Prop} {l : List α} {r : List β} (h : List.Forall₂ R l r)
    (hP : ∀ a ∈ l, P a) (hR : ∀ a b, P a → R a b → Q b) : ∀ b ∈ r, Q b := by
  induction h with
  | nil => simp
  | @cons a b l r h1 _ ih =>
    intro c hc
    rcases List.mem_cons.mp hc with rfl | hc
    · exact hR _ _ (hP a (by simp)) h1
    · exact ih (fun a ha => hP a (List.mem_cons_of_mem _ ha)) c hc

theorem plusCreate_expanded (hs : ∀ l, (Γ.sortPlus l).Perm l) {n : ℕ} {ops : List (QX K)} {r : QX K} (ho : ∀ x ∈ ops, Expanded x)
    (h : plusCreate Γ n ops = .ok r) : Expanded r := by
  cases n with
  | zero => rw [plusCreate] at h; cases h
  | succ n =>
    rw [plusCreate] at h
    obtain ⟨fops, h1, h2⟩ := Except.bind_ok h
    cases h2
    apply expanded_of_summands
    have h0 : ∀ x ∈ Γ.sortPlus (Engine.assoc flatPlus ops), NoSum x := by
      intro x hx
      rw [(hs _).mem_iff, flatten_eq] at hx
      obtain ⟨y, hy, hx⟩ := List.mem_flatMap.mp hx
      apply (ho y hy).summands
      cases y <;> exact hx
    have h3 := forall₂_forall (P := fun p : QX K × K => NoSum p.1) (Q := NoSum) (mapM_ok_forall₂ h1) (coeffMap_noSum h0)
      (fun a b ha hb => mulScal_noSum n _ _ _ ha hb)
    exact fun y hy => h3 y (List.mem_filter.mp hy).1

/-- what the context must satisfy: special rules yield no sums (in particular, there is no pair of operators whose commutator is written
out); sorting only re-orders -/
structure SumFreeCtx (Γ : Ctx K) : Prop where
  sortPlus : ∀ l, (Γ.sortPlus l).Perm l
  sortTimes : ∀ l, (Γ.sortTimes l).Perm l
  atomRule : ∀ a b r, Γ.atomRule a b = some r → NoSum r
  known : ∀ a b, Γ.known a b = false

omit [CommRing K] [DecidableEq K] in
theorem prod_unit_iff {l : List (QX K)} {m : Unit} : Engine.Prod (fun x (_ : Unit) => NoSum x) l m ↔ ∀ x ∈ l, NoSum x := by
  constructor
  · rintro ⟨ms, h, _⟩
    induction h with
    | nil => simp
    | cons h1 _ ih =>
      intro x hx
      rcases List.mem_cons.mp hx with rfl | hx
      · exact h1
      · exact ih (by rfl) x hx
  · intro h
    refine ⟨l.map (fun _ => ()), ?_, rfl⟩
    rw [List.forall₂_map_right_iff]
    exact List.forall₂_same.mpr h

theorem times_noSum (hΓ : SumFreeCtx Γ) : ∀ n,
    (∀ ops r, (∀ x ∈ ops, NoSum x) → timesCreate Γ n ops = .ok r → NoSum r) ∧
    (∀ x y r, NoSum x → NoSum y → binRule Γ n x y = .ok (some r) → NoSum r) := by
  intro n
  induction n with
  | zero =>
    refine ⟨fun ops r _ h => ?_, fun x y r _ _ h => ?_⟩
    · rw [timesCreate] at h; cases h
    · rw [binRule] at h; cases h
  | succ n ih =>
    obtain ⟨ih1, ih2⟩ := ih
    refine ⟨fun ops r ho h => ?_, fun x y r hx hy h => ?_⟩
    · have hs : Engine.Sound (fun x (_ : Unit) => NoSum x) (binRule Γ n) (fun x => decide (x = .one)) flatTimes :=
        ⟨fun x y r _ _ hx hy hr => ih2 x y r hx hy hr,
         fun r a hn ha => rfl,
         fun r l a hl ha => by
           rw [prod_unit_iff, ← noSums_iff]
           rw [flatTimes_eq hl] at ha
           simpa [NoSum] using ha⟩
      have h1 := Engine.prod_assoc hs.flat (prod_unit_iff (m := ()).mpr ho)
      rw [prod_unit_iff] at h1
      have h3 := prod_unit_iff (m := ()).mpr (fun x hx => h1 x ((hΓ.sortTimes _).mem_iff.mp hx))
      have h4 := Engine.filterNeutral_sound hs.neutral (ne := .one) (by simp [NoSum]) h3
      rw [timesCreate] at h
      unfold timesStep at h
      cases e : Engine.filterNeutral QX.one (fun x => decide (x = .one)) (Γ.sortTimes (Engine.assoc flatTimes ops)) with
      | single x =>
        rw [e] at h h4
        cases h
        exact h4
      | operands l =>
        rw [e] at h h4
        simp only at h
        obtain ⟨o, h5, h6⟩ := QNET.Indexed.Except.map_ok h
        have h7 := Engine.matchReplaceBinary_sound hs (ne := .one) (by simp [NoSum]) h4 h5
        cases o with
        | single x => cases h6; exact h7
        | operands l' =>
          cases h6
          simp only [wrapTimes, NoSum, noSums_iff]
          exact prod_unit_iff.mp h7
    · rw [binRule] at h
      unfold binStep at h
      split at h
      · obtain ⟨s, h1, h2⟩ := Except.bind_ok h
        obtain ⟨t, h3, h4⟩ := Except.bind_ok h1
        cases h2
        refine mulScal_noSum n _ _ _ (ih1 _ _ ?_ h3) h4
        simp only [List.mem_cons, List.not_mem_nil, or_false, forall_eq_or_imp, forall_eq]
        exact ⟨by simpa [NoSum] using hx, hy⟩
      · cases h; simp [NoSum]
      · cases h; simp [NoSum]
      · obtain ⟨s, h1, h2⟩ := Except.bind_ok h
        obtain ⟨t, h3, h4⟩ := Except.bind_ok h1
        cases h2
        refine mulScal_noSum n _ _ _ (ih1 _ _ ?_ h3) h4
        simp only [List.mem_cons, List.not_mem_nil, or_false, forall_eq_or_imp, forall_eq]
        exact ⟨hx, by simpa [NoSum] using hy⟩
      · injection h with h
        exact hΓ.atomRule _ _ _ h
      · cases h

omit [CommRing K] [DecidableEq K] in
theorem foldFirst_inv {α : Type} {op : α → α → Res α} {P : α → Prop} (hop : ∀ a b r, P a → P b → op a b = .ok r → P r) {r : α} {l : List α}
    (hl : ∀ x ∈ l, P x) (h : foldFirst op l = .ok r) : P r := by
  match l, h with
  | x :: l, h =>
    induction l generalizing x with
    | nil => cases h; exact hl _ (by simp)
    | cons y l ih =>
      rw [foldFirst, List.foldlM_cons] at h
      obtain ⟨z, h1, h2⟩ := Except.bind_ok h
      refine ih z h2 (fun w hw => ?_)
      rcases List.mem_cons.mp hw with rfl | hw
      · exact hop _ _ _ (hl _ (by simp)) (hl _ (by simp)) h1
      · exact hl _ (by simp [hw])

theorem commCreate_noSum (hΓ : SumFreeCtx Γ) : ∀ (n : ℕ) (x y r : QX K), NoSum x → NoSum y → commCreate Γ n x y = .ok r → NoSum r := by
  intro n
  induction n with
  | zero => intro x y r _ _ h; rw [commCreate] at h; cases h
  | succ n ih =>
    intro x y r hx hy h
    rw [commCreate] at h; unfold commStep at h
    split at h
    · cases h; simp [NoSum]
    split at h
    · obtain ⟨c, h1, h2⟩ := Except.bind_ok h
      exact mulScal_noSum n _ _ _ (ih _ _ _ hy hx h1) h2
    split at h
    · cases h; simp [NoSum]
    split at h
    · obtain ⟨c, h1, h2⟩ := Except.bind_ok h
      exact mulScal_noSum n _ _ _ (ih _ _ _ (by simpa [NoSum] using hx) (by simpa [NoSum] using hy) h1) h2
    · obtain ⟨c, h1, h2⟩ := Except.bind_ok h
      exact mulScal_noSum n _ _ _ (ih _ _ _ (by simpa [NoSum] using hx) hy h1) h2
    · obtain ⟨c, h1, h2⟩ := Except.bind_ok h
      exact mulScal_noSum n _ _ _ (ih _ _ _ hx (by simpa [NoSum] using hy) h1) h2
    · split at h
      · cases h; simp [NoSum]
      rw [hΓ.known] at h
      cases h; simp [NoSum]
    · cases h; simp [NoSum, hx, hy]

theorem cart_mem {α : Type} {ls : List (List α)} {P : α → Prop} (h : ∀ l ∈ ls, ∀ x ∈ l, P x) : ∀ c ∈ cart ls, ∀ x ∈ c, P x := by
  induction ls with
  | nil => simp [cart]
  | cons l ls ih =>
    intro c hc x hx
    obtain ⟨y, hy, hc⟩ := List.mem_flatMap.mp hc
    obtain ⟨c', hc', rfl⟩ := List.mem_map.mp hc
    rcases List.mem_cons.mp hx with rfl | hx
    · exact h l (by simp) _ hy
    · exact ih (fun l hl => h l (List.mem_cons_of_mem _ hl)) c' hc' x hx

theorem expandEnd_expanded (hΓ : SumFreeCtx Γ) {n : ℕ} {ex : QX K → Res (QX K)} (hex : ∀ x r, ex x = .ok r → Expanded r) {l : List (QX K)}
    {r : QX K} (hl : ∀ x ∈ l, NoSum x) (h : expandEnd ex (add Γ n) l = .ok r) : Expanded r := by
  obtain ⟨s, h1, h2⟩ := Except.bind_ok h
  have h3 : Expanded s := by
    refine foldFirst_inv (P := Expanded) (fun a b r ha hb h => ?_) (fun x hx => .inl (hl x hx)) h1
    refine plusCreate_expanded hΓ.sortPlus ?_ h
    simp only [List.mem_cons, List.not_mem_nil, or_false, forall_eq_or_imp, forall_eq]
    exact ⟨ha, hb⟩
  cases s with
  | plus l' => exact hex _ _ h2
  | _ => cases h2; exact h3

/-- C30 (partial): if the special rules for pairs of symbols yield no sums, then the result of `expand()` is free of sums or is a sum of
expressions that are free of sums: no product and no scalar multiple contains a sum, at any depth. Without the assumption this is
false, see `C30_refuted_rule`. -/
theorem C30_expanded_partial (hΓ : SumFreeCtx Γ) : ∀ (n : ℕ) (x r : QX K), expand Γ n x = .ok r → Expanded r := by
  intro n
  induction n with
  | zero => intro x r h; rw [expand] at h; cases h
  | succ n ih =>
    intro x r h
    rw [expand] at h
    unfold expandStep at h
    cases x with
    | plus l =>
      obtain ⟨l', h1, h2⟩ := Except.bind_ok h
      exact plusCreate_expanded hΓ.sortPlus (forall₂_forall (P := fun _ => True) (mapM_ok_forall₂ h1) (fun _ _ => trivial) (fun a b _ hb => ih _ _ hb)) h2
    | times l =>
      obtain ⟨l', h1, h2⟩ := Except.bind_ok h
      obtain ⟨ss, h3, h4⟩ := Except.bind_ok h2
      have h5 := forall₂_forall (P := fun _ => True) (Q := Expanded) (mapM_ok_forall₂ h1) (fun _ _ => trivial) (fun a b _ hb => ih _ _ hb)
      have h6 : ∀ c ∈ cart (l'.map summandsOf), ∀ x ∈ c, NoSum x := by
        apply cart_mem
        intro l hl
        obtain ⟨y, hy, rfl⟩ := List.mem_map.mp hl
        exact (h5 y hy).summands
      refine expandEnd_expanded hΓ ih (forall₂_forall (Q := NoSum) (mapM_ok_forall₂ h3) h6 (fun c x hc hx => ?_)) h4
      refine foldFirst_inv (P := NoSum) (fun a b r ha hb h => ?_) hc hx
      refine (times_noSum hΓ n).1 _ _ ?_ h
      simp only [List.mem_cons, List.not_mem_nil, or_false, forall_eq_or_imp, forall_eq]
      exact ⟨ha, hb⟩
    | scal c t =>
      obtain ⟨e, h1, h2⟩ := Except.bind_ok h
      obtain ⟨ss, h3, h4⟩ := Except.bind_ok h2
      exact expandEnd_expanded hΓ ih (forall₂_forall (Q := NoSum) (mapM_ok_forall₂ h3) (ih _ _ h1).summands
        (fun a b ha hb => mulScal_noSum n _ _ _ ha hb)) h4
    | comm a b =>
      obtain ⟨a', h1, h2⟩ := Except.bind_ok h
      obtain ⟨b', h3, h4⟩ := Except.bind_ok h2
      obtain ⟨ss, h5, h6⟩ := Except.bind_ok h4
      refine plusCreate_expanded hΓ.sortPlus (forall₂_forall (P := fun p : QX K × QX K => NoSum p.1 ∧ NoSum p.2) (mapM_ok_forall₂ h5) (fun p hp => ?_)
        (fun p x hp hx => .inl (commCreate_noSum hΓ n _ _ _ hp.1 hp.2 hx))) h6
      obtain ⟨x, hx, hp⟩ := List.mem_flatMap.mp hp
      obtain ⟨y, hy, rfl⟩ := List.mem_map.mp hp
      exact ⟨(ih _ _ h1).summands x hx, (ih _ _ h3).summands y hy⟩
    | atom a => cases h; exact .inl (by simp [NoSum])
    | zero => cases h; exact .inl (by simp [NoSum])
    | one => cases h; exact .inl (by simp [NoSum])

/-! ## Concrete cases -/

example : SumFreeCtx (Ctx.plain ℤ) := ⟨fun _ => .refl _, fun _ => .refl _, fun _ _ _ h => (by cases h), fun _ _ => rfl⟩

/-- `2 * (A + B) * (A - B) -> 2*A*A - 2*A*B + 2*B*A - 2*B*B` -/
example : expand (Ctx.plain ℤ) 12 (.scal 2 (.times [.plus [.atom 0, .atom 1], .plus [.atom 0, .scal (-1) (.atom 1)]]))
    = .ok (.plus [.scal 2 (.times [.atom 0, .atom 0]), .scal (-2) (.times [.atom 0, .atom 1]), .scal 2 (.times [.atom 1, .atom 0]),
        .scal (-2) (.times [.atom 1, .atom 1])]) := by kernel_rfl

/-- the oscillator rule R013 (`_rules.py` lines 199-203): symbol 0 is `a`, symbol 1 is its adjoint, `a * a^dagger -> 1 + a^dagger * a` -/
def Ctx.osc : Ctx ℤ := ⟨fun a b => if a = 0 ∧ b = 1 then some (.plus [.one, .times [.atom 1, .atom 0]]) else none, id, id,
  fun _ _ => false, fun _ _ => false, fun _ _ => false, fun a b => (a == 0 || a == 1) && (b == 0 || b == 1)⟩

/-- C30 refuted in the presence of rules that yield sums: `B * (2*(A+a) - 2*A) * a^dagger` is expanded to
`2 * (B * (1 + a^dagger*a))`, in which a product has a sum as a factor. The operand `2*(A+a) - 2*A` is a sum as created by the code. -/
theorem C30_refuted_rule :
    plusCreate Ctx.osc 5 [.scal 2 (.plus [.atom 3, .atom 0]), .scal (-2) (.atom 3)]
      = .ok (.plus [.scal 2 (.plus [.atom 3, .atom 0]), .scal (-2) (.atom 3)]) ∧
    expand Ctx.osc 20 (.times [.atom 4, .plus [.scal 2 (.plus [.atom 3, .atom 0]), .scal (-2) (.atom 3)], .atom 1])
      = .ok (.scal 2 (.times [.atom 4, .plus [.one, .times [.atom 1, .atom 0]]])) ∧
    ¬ Expanded (K := ℤ) (.scal 2 (.times [.atom 4, .plus [.one, .times [.atom 1, .atom 0]]])) := by
  refine ⟨by kernel_rfl, by kernel_rfl, ?_⟩
  rintro (h | ⟨l, h, _⟩)
  · simp [NoSum, NoSums] at h
  · cases h

/-- Projectors of a two-level system: symbols 1, 2, 3, 4 are `|0><1|`, `|1><0|`, `|0><0|`, `|1><1|` (only the two products needed; rule R005
of `OperatorTimes`, `_rules.py` lines 178-186), whose commutators are written out (rules R006, R007 of `Commutator`). -/
def Ctx.tls : Ctx ℤ := ⟨fun a b => if a = 1 ∧ b = 2 then some (.atom 3) else if a = 2 ∧ b = 1 then some (.atom 4) else none, id, id,
  fun _ _ => false, fun _ _ => false, fun _ _ => false, fun a b => (1 ≤ a && a ≤ 4 : Bool) && (1 ≤ b && b ≤ 4 : Bool)⟩

/-- C30 refuted for commutators that are written out: `[2*|0><1| + B, 3*|1><0|]` is expanded to `6*(|0><0| - |1><1|) + 3*[B, |1><0|]`,
which contains a scalar multiple of a sum. -/
theorem C30_refuted_commutator :
    expand Ctx.tls 12 (.comm (.plus [.scal 2 (.atom 1), .atom 9]) (.scal 3 (.atom 2)))
      = .ok (.plus [.scal 6 (.plus [.atom 3, .scal (-1) (.atom 4)]), .scal 3 (.comm (.atom 9) (.atom 2))]) ∧
    ¬ Expanded (K := ℤ) (.plus [.scal 6 (.plus [.atom 3, .scal (-1) (.atom 4)]), .scal 3 (.comm (.atom 9) (.atom 2))]) := by
  refine ⟨by kernel_rfl, ?_⟩
  rintro (h | ⟨l, h, hl⟩)
  · simp [NoSum] at h
  · cases h
    have := hl _ (List.mem_cons_self)
    simp [NoSum] at this

end QNET.QAlg
