import Verif.QAlg.Model
import Verif.Engine.Lemmas
import Verif.Indexed.Sem
import Mathlib.Algebra.Algebra.Defs
import Mathlib.Tactic.NoncommRing
import Mathlib.Algebra.BigOperators.Group.List.Basic
import Mathlib.Algebra.BigOperators.GroupWithZero.Action
import Mathlib.Algebra.BigOperators.Ring.List

/-! # Values of sums and products, and soundness of `create` and `expand` -/

namespace QNET.QAlg

open QNET.Perm (Res Err)
open QNET.Indexed (Except.bind_ok mapM_ok_cons mapM_ok_forall₂)

variable {K : Type} [CommRing K] [DecidableEq K]

/-- `v` interprets expressions in a module: zero, scalar multiples and sums mean what they say (nothing is required of symbols and
products). -/
structure LinearVal {M : Type} [AddCommGroup M] [Module K M] (v : QX K → M) : Prop where
  zero : v .zero = 0
  scal : ∀ c t, v (.scal c t) = c • v t
  plus : ∀ l, v (.plus l) = (l.map v).sum

section Mod
variable {M : Type} [AddCommGroup M] [Module K M] {v : QX K → M}

omit [DecidableEq K] in
theorem split_val (hv : LinearVal (K := K) v) (x : QX K) : (split x).2 • v (split x).1 = v x := by
  cases x <;> simp [split, hv.scal]

/-- the value of a coefficient map -/
def mapVal (v : QX K → M) (m : List (QX K × K)) : M := (m.map (fun tc => tc.2 • v tc.1)).sum

theorem addTerm_val (m : List (QX K × K)) (t : QX K) (c : K) : mapVal v (addTerm m t c) = mapVal v m + c • v t := by
  induction m with
  | nil => simp [mapVal, addTerm]
  | cons p m ih =>
    obtain ⟨t', c'⟩ := p
    unfold addTerm
    split
    · rename_i h
      subst h
      simp only [mapVal, List.map_cons, List.sum_cons, add_smul]
      rw [add_assoc, add_assoc, add_comm (c • v t')]
    · simp only [mapVal, List.map_cons, List.sum_cons] at ih ⊢
      rw [ih, add_assoc]

theorem foldl_addTerm_val (hv : LinearVal (K := K) v) (ops : List (QX K)) : ∀ m : List (QX K × K),
    mapVal v (ops.foldl (fun m op => addTerm m (split op).1 (split op).2) m) = mapVal v m + (ops.map v).sum := by
  induction ops with
  | nil => intro m; simp
  | cons x l ih =>
    intro m
    rw [List.foldl_cons, ih, addTerm_val, split_val hv, List.map_cons, List.sum_cons, add_assoc]

theorem coeffMap_val (hv : LinearVal (K := K) v) (ops : List (QX K)) : mapVal v (coeffMap ops) = (ops.map v).sum := by
  rw [coeffMap, foldl_addTerm_val hv]; simp [mapVal]

omit [DecidableEq K] in
theorem assocPlus_val (hv : LinearVal (K := K) v) (ops : List (QX K)) :
    ((Engine.assoc flatPlus ops).map v).sum = (ops.map v).sum := by
  induction ops with
  | nil => rfl
  | cons x l ih =>
    simp only [Engine.assoc, List.flatMap_cons, List.map_append, List.sum_append, List.map_cons, List.sum_cons] at ih ⊢
    rw [ih]
    congr 1
    cases x <;> simp [flatPlus, hv.plus]

omit [DecidableEq K] in
theorem wrapPlus_val (hv : LinearVal (K := K) v) (l : List (QX K)) : v (wrapPlus l) = (l.map v).sum := by
  match l with
  | [] => simp [wrapPlus, hv.zero]
  | [x] => simp [wrapPlus]
  | x :: y :: l => simp only [wrapPlus, hv.plus]

theorem filter_val (hv : LinearVal (K := K) v) (l : List (QX K)) :
    ((l.filter (fun op => !decide (op = .zero))).map v).sum = (l.map v).sum := by
  induction l with
  | nil => rfl
  | cons x l ih =>
    rw [List.filter_cons]
    split
    · simp [ih]
    · rename_i h
      have : x = .zero := by simpa using h
      simp [ih, this, hv.zero]

omit [DecidableEq K] in
theorem forall₂_sum {α : Type} {R : α → QX K → Prop} {f : α → M} {l : List α} {r : List (QX K)} (h : List.Forall₂ R l r)
    (hf : ∀ a x, R a x → v x = f a) : (r.map v).sum = (l.map f).sum := by
  induction h with
  | nil => rfl
  | cons h1 _ ih => simp [hf _ _ h1, ih]

variable {Γ : Ctx K}

/-- the module part: scalar multiples and sums -/
theorem lin_sound (hv : LinearVal (K := K) v) (hs : ∀ l, (Γ.sortPlus l).Perm l) : ∀ n,
    (∀ c t r, mulScal Γ n c t = .ok r → v r = c • v t) ∧ (∀ ops r, plusCreate Γ n ops = .ok r → v r = (ops.map v).sum) := by
  intro n
  induction n with
  | zero =>
    refine ⟨fun c t r h => ?_, fun ops r h => ?_⟩
    · rw [mulScal] at h; cases h
    · rw [plusCreate] at h; cases h
  | succ n ih =>
    obtain ⟨ih1, ih2⟩ := ih
    refine ⟨fun c t r h => ?_, fun ops r h => ?_⟩
    · rw [mulScal] at h; unfold mulScalStep at h
      split at h
      · rename_i hc; cases h; simp [hc]
      split at h
      · rename_i hc; cases h; simp [hc, hv.zero]
      cases t with
      | zero => cases h; simp [hv.zero]
      | scal w A =>
        have := ih1 _ _ _ h
        rw [this, hv.scal, mul_smul]
      | plus l =>
        simp only at h
        split at h
        · rename_i hc
          obtain ⟨l', h1, h2⟩ := Except.bind_ok h
          rw [ih2 _ _ h2, hv.plus, forall₂_sum (f := fun x => (-1 : K) • v x) (mapM_ok_forall₂ h1) (fun a x hx => ih1 _ _ _ hx), hc,
            List.smul_sum, List.map_map]
          rfl
        · cases h; simp [hv.scal, hv.plus]
      | atom a => cases h; simp [hv.scal]
      | one => cases h; simp [hv.scal]
      | times l => cases h; simp [hv.scal]
      | comm a b => cases h; simp [hv.scal]
    · rw [plusCreate] at h; unfold plusStep at h
      obtain ⟨fops, h1, h2⟩ := Except.bind_ok h
      cases h2
      rw [wrapPlus_val hv, filter_val hv,
        forall₂_sum (f := fun tc : QX K × K => tc.2 • v tc.1) (mapM_ok_forall₂ h1) (fun a x hx => ih1 _ _ _ hx)]
      have := coeffMap_val hv (Γ.sortPlus (Engine.assoc flatPlus ops))
      rw [mapVal] at this
      rw [this, ((hs _).map v).sum_eq, assocPlus_val hv]

end Mod

section Alg
variable {A : Type} [Ring A] [Algebra K A] (ρ : ℕ → A)

mutual
/-- The value of an expression in an algebra, for given values of the symbols -/
def val : QX K → A
  | .atom a => ρ a
  | .zero => 0
  | .one => 1
  | .scal c t => c • val t
  | .plus l => (vals l).sum
  | .times l => (vals l).prod
  | .comm a b => val a * val b - val b * val a
/-- values of a list of expressions -/
def vals : List (QX K) → List A
  | [] => []
  | x :: l => val x :: vals l
end

omit [DecidableEq K] in
theorem vals_map (l : List (QX K)) : vals ρ l = l.map (val ρ) := by
  induction l with
  | nil => simp [vals]
  | cons x l ih => simp [vals, ih]

omit [DecidableEq K] in
theorem val_linear : LinearVal (K := K) (val (A := A) ρ) :=
  ⟨by simp [val], fun c t => by simp [val], fun l => by simp [val, vals_map]⟩

omit [DecidableEq K] in
theorem val_times (l : List (QX K)) : val (A := A) ρ (.times l) = (l.map (val ρ)).prod := by simp [val, vals_map]

variable {ρ} {Γ : Ctx K}

/-- What is required of the rest of the code: sums are sorted, sorting a product and applying a rule for particular operators do
not change the product's value, operators on disjoint spaces commute, and ladder operators satisfy `[a^dagger, a] = -1`. -/
structure SoundCtx (Γ : Ctx K) (ρ : ℕ → A) : Prop where
  sortPlus : ∀ l, (Γ.sortPlus l).Perm l
  sortTimes : ∀ l, ((Γ.sortTimes l).map (val ρ)).prod = (l.map (val ρ)).prod
  atomRule : ∀ a b r, Γ.atomRule a b = some r → val ρ r = ρ a * ρ b
  disjoint : ∀ x y, Γ.disjoint x y = true → val ρ x * val ρ y = val ρ y * val ρ x
  ladder : ∀ a b, Γ.ladder a b = true → ρ a * ρ b - ρ b * ρ a = -1

theorem flatTimes_eq {r : QX K} {l : List (QX K)} (h : flatTimes r = some l) : r = .times l := by
  cases r <;> simp [flatTimes] at h
  rw [h]

theorem times_sound (hΓ : SoundCtx Γ ρ) : ∀ n,
    (∀ ops r, timesCreate Γ n ops = .ok r → val ρ r = (ops.map (val ρ)).prod) ∧
    (∀ x y r, binRule Γ n x y = .ok (some r) → val ρ r = val ρ x * val ρ y) := by
  intro n
  induction n with
  | zero =>
    refine ⟨fun ops r h => ?_, fun x y r h => ?_⟩
    · rw [timesCreate] at h; cases h
    · rw [binRule] at h; cases h
  | succ n ih =>
    obtain ⟨ih1, ih2⟩ := ih
    obtain ⟨hm, _⟩ := lin_sound (val_linear ρ) hΓ.sortPlus n
    refine ⟨fun ops r h => ?_, fun x y r h => ?_⟩
    · have hs : Engine.Sound (fun x a => val ρ x = a) (binRule Γ n) (fun x => decide (x = .one)) flatTimes :=
        ⟨fun x y r a b hx hy hr => by rw [ih2 x y r hr, hx, hy],
         fun r a hn ha => by rw [← ha, of_decide_eq_true hn]; simp [val],
         fun r l a hl ha => by
           refine ⟨l.map (val ρ), ?_, ?_⟩
           · rw [List.forall₂_map_right_iff]; exact List.forall₂_same.mpr (fun _ _ => rfl)
           · rw [← ha, flatTimes_eq hl, val_times]⟩
      have h0 : ∀ l : List (QX K), Engine.Prod (fun x a => val ρ x = a) l (l.map (val ρ)).prod := fun l =>
        ⟨l.map (val ρ), by rw [List.forall₂_map_right_iff]; exact List.forall₂_same.mpr (fun _ _ => rfl), rfl⟩
      have h0' : ∀ (l : List (QX K)) m, Engine.Prod (fun x a => val ρ x = a) l m → (l.map (val ρ)).prod = m := by
        rintro l m ⟨ms, h1, rfl⟩
        congr 1
        induction h1 with
        | nil => rfl
        | cons h1 _ ih => simp [h1, ih]
      have h1 := Engine.prod_assoc hs.flat (h0 ops)
      have h2 := h0' _ _ h1
      rw [← hΓ.sortTimes] at h2
      have h3 := h0 (Γ.sortTimes (Engine.assoc flatTimes ops))
      rw [h2] at h3
      have h4 := Engine.filterNeutral_sound hs.neutral (ne := .one) (by simp [val]) h3
      rw [timesCreate] at h; unfold timesStep at h
      cases e : Engine.filterNeutral QX.one (fun x => decide (x = .one)) (Γ.sortTimes (Engine.assoc flatTimes ops)) with
      | single x =>
        rw [e] at h h4
        cases h
        exact h4
      | operands l =>
        rw [e] at h h4
        simp only at h
        obtain ⟨o, h5, h6⟩ := QNET.Indexed.Except.map_ok h
        have h7 := Engine.matchReplaceBinary_sound hs (ne := .one) (by simp [val]) h4 h5
        cases o with
        | single x => cases h6; exact h7
        | operands l' => cases h6; rw [wrapTimes, val_times]; exact h0' _ _ h7
    · rw [binRule] at h; unfold binStep at h
      split at h
      · obtain ⟨s, h1, h2⟩ := Except.bind_ok h
        obtain ⟨t, h3, h4⟩ := Except.bind_ok h1
        cases h2
        rw [hm _ _ _ h4, ih1 _ _ h3]
        simp [val]
      · cases h; simp [val]
      · cases h; simp [val]
      · obtain ⟨s, h1, h2⟩ := Except.bind_ok h
        obtain ⟨t, h3, h4⟩ := Except.bind_ok h1
        cases h2
        rw [hm _ _ _ h4, ih1 _ _ h3]
        simp [val]
      · injection h with h
        simpa [val] using hΓ.atomRule _ _ _ h
      · cases h

omit [DecidableEq K] in
theorem summandsOf_val (x : QX K) : ((summandsOf x).map (val (A := A) ρ)).sum = val ρ x := by
  cases x <;> simp [summandsOf, val, vals_map]

theorem cart_val {α : Type} (f : α → A) (ls : List (List α)) :
    ((cart ls).map (fun c => (c.map f).prod)).sum = (ls.map (fun l => (l.map f).sum)).prod := by
  induction ls with
  | nil => simp [cart]
  | cons l ls ih =>
    simp only [cart, List.map_cons, List.prod_cons, ← ih]
    induction l with
    | nil => simp
    | cons x l ihl =>
      simp only [List.flatMap_cons, List.map_append, List.sum_append, List.map_map, List.map_cons, List.sum_cons, add_mul]
      rw [ihl]
      congr 1
      rw [← List.sum_map_mul_left]
      congr 1

theorem foldFirst_val {α : Type} {op : α → α → Res α} {f : α → A} {g : A → A → A}
    (hop : ∀ a b r, op a b = .ok r → f r = g (f a) (f b)) {x r : α} {l : List α} (h : foldFirst op (x :: l) = .ok r) :
    f r = (l.map f).foldl g (f x) := by
  induction l generalizing x with
  | nil => cases h; rfl
  | cons y l ih =>
    rw [foldFirst, List.foldlM_cons] at h
    obtain ⟨z, h1, h2⟩ := Except.bind_ok h
    rw [ih (x := z) h2, hop _ _ _ h1]; rfl

theorem foldFirst_ne {α : Type} {op : α → α → Res α} {r : α} {l : List α} (h : foldFirst op l = .ok r) : l ≠ [] := by
  rintro rfl; cases h

theorem foldl_add (a : A) (l : List A) : l.foldl (· + ·) a = a + l.sum := by
  induction l generalizing a with
  | nil => simp
  | cons b l ih => rw [List.foldl_cons, ih, List.sum_cons, add_assoc]

theorem foldl_mul (a : A) (l : List A) : l.foldl (· * ·) a = a * l.prod := by
  induction l generalizing a with
  | nil => simp
  | cons b l ih => rw [List.foldl_cons, ih, List.prod_cons, mul_assoc]

theorem foldFirst_sum {α : Type} {op : α → α → Res α} {f : α → A} (hop : ∀ a b r, op a b = .ok r → f r = f a + f b) {r : α} {l : List α}
    (h : foldFirst op l = .ok r) : f r = (l.map f).sum := by
  match l, h with
  | x :: l, h => rw [foldFirst_val hop h, List.map_cons, List.sum_cons, foldl_add]

theorem foldFirst_prod {α : Type} {op : α → α → Res α} {f : α → A} (hop : ∀ a b r, op a b = .ok r → f r = f a * f b) {r : α} {l : List α}
    (h : foldFirst op l = .ok r) : f r = (l.map f).prod := by
  match l, h with
  | x :: l, h => rw [foldFirst_val hop h, List.map_cons, List.prod_cons, foldl_mul]

theorem expandEnd_val (hΓ : SoundCtx Γ ρ) {n : ℕ} {ex : QX K → Res (QX K)} (hex : ∀ x r, ex x = .ok r → val ρ r = val ρ x) {l : List (QX K)}
    {r : QX K} (h : expandEnd ex (add Γ n) l = .ok r) : val ρ r = (l.map (val ρ)).sum := by
  obtain ⟨s, h1, h2⟩ := Except.bind_ok h
  have h3 : val ρ s = (l.map (val ρ)).sum := by
    refine foldFirst_sum (fun a b r h => ?_) h1
    have := (lin_sound (val_linear ρ) hΓ.sortPlus n).2 _ _ h
    simpa using this
  rw [← h3]
  cases s with
  | plus l' => exact hex _ _ h2
  | _ => cases h2; rfl

omit [DecidableEq K] in
theorem forall₂_map_eq {α β : Type} {R : α → β → Prop} {f : α → A} {g : β → A} {l : List α} {r : List β} (h : List.Forall₂ R l r)
    (hf : ∀ a x, R a x → g x = f a) : r.map g = l.map f := by
  induction h with
  | nil => rfl
  | cons h1 _ ih => simp [hf _ _ h1, ih]

theorem sub_val (hΓ : SoundCtx Γ ρ) {n : ℕ} {x y r : QX K} (h : sub Γ n x y = .ok r) : val ρ r = val ρ x - val ρ y := by
  obtain ⟨s, h1, h2⟩ := Except.bind_ok h
  obtain ⟨hm, hp⟩ := lin_sound (val_linear ρ) hΓ.sortPlus n
  have := hp _ _ h2
  rw [this]
  simp [hm _ _ _ h1, sub_eq_add_neg]

theorem commCreate_val (hΓ : SoundCtx Γ ρ) : ∀ (n : ℕ) (x y r : QX K), commCreate Γ n x y = .ok r → val ρ r = val ρ x * val ρ y - val ρ y * val ρ x := by
  intro n
  induction n with
  | zero => intro x y r h; rw [commCreate] at h; cases h
  | succ n ih =>
    intro x y r h
    obtain ⟨hm, hp⟩ := lin_sound (val_linear ρ) hΓ.sortPlus n
    have hmul : ∀ (a b r : QX K), mul Γ n a b = .ok r → val ρ r = val ρ a * val ρ b := by
      intro a b r h
      simpa using (times_sound hΓ n).1 _ _ h
    rw [commCreate] at h; unfold commStep at h
    split at h
    · rename_i hd
      cases h
      rw [hΓ.disjoint _ _ hd]; simp [val]
    split at h
    · obtain ⟨c, h1, h2⟩ := Except.bind_ok h
      rw [hm _ _ _ h2, ih _ _ _ h1]; simp
    split at h
    · rename_i e; cases h; rw [e]; simp [val]
    split at h
    · obtain ⟨c, h1, h2⟩ := Except.bind_ok h
      rw [hm _ _ _ h2, ih _ _ _ h1]
      simp only [val, smul_mul_assoc, mul_smul_comm, smul_sub, smul_smul]
      rw [mul_comm]
    · obtain ⟨c, h1, h2⟩ := Except.bind_ok h
      rw [hm _ _ _ h2, ih _ _ _ h1]
      simp only [val, smul_mul_assoc, mul_smul_comm, smul_sub]
    · obtain ⟨c, h1, h2⟩ := Except.bind_ok h
      rw [hm _ _ _ h2, ih _ _ _ h1]
      simp only [val, smul_mul_assoc, mul_smul_comm, smul_sub]
    · split at h
      · rename_i hl
        cases h
        simp [val, hΓ.ladder _ _ hl]
      split at h
      · obtain ⟨a, h1, h2⟩ := Except.bind_ok h
        obtain ⟨b, h3, h4⟩ := Except.bind_ok h2
        rw [sub_val hΓ h4, hmul _ _ _ h1, hmul _ _ _ h3]
      · cases h; simp [val]
    · cases h; simp [val]

omit [DecidableEq K] in
theorem pairs_comm (l m : List A) : ((l.flatMap (fun x => m.map (fun y => (x, y)))).map (fun p => p.1 * p.2 - p.2 * p.1)).sum
    = l.sum * m.sum - m.sum * l.sum := by
  induction l with
  | nil => simp
  | cons a l ih =>
    rw [List.flatMap_cons, List.map_append, List.sum_append, ih, List.sum_cons, List.map_map]
    have : ∀ m : List A, (m.map ((fun p : A × A => p.1 * p.2 - p.2 * p.1) ∘ fun y => (a, y))).sum = a * m.sum - m.sum * a := by
      intro m
      induction m with
      | nil => simp
      | cons b m ih => rw [List.map_cons, List.sum_cons, ih, List.sum_cons]; simp only [Function.comp]; noncomm_ring
    rw [this]; noncomm_ring

theorem commPairs_val {l m : List (QX K)} : ((l.flatMap (fun x => m.map (fun y => (x, y)))).map
    (fun p => val (A := A) ρ p.1 * val ρ p.2 - val ρ p.2 * val ρ p.1)).sum = (l.map (val ρ)).sum * (m.map (val ρ)).sum - (m.map (val ρ)).sum * (l.map (val ρ)).sum := by
  rw [← pairs_comm, List.map_flatMap, List.flatMap_map, List.map_flatMap]
  congr 2
  funext x
  simp [List.map_map, Function.comp_def]

theorem expand_val (hΓ : SoundCtx Γ ρ) : ∀ n x r, expand Γ n x = .ok r → val ρ r = val ρ x := by
  intro n
  induction n with
  | zero => intro x r h; rw [expand] at h; cases h
  | succ n ih =>
    intro x r h
    obtain ⟨hm, hp⟩ := lin_sound (val_linear ρ) hΓ.sortPlus n
    rw [expand] at h; unfold expandStep at h
    cases x with
    | plus l =>
      obtain ⟨l', h1, h2⟩ := Except.bind_ok h
      rw [hp _ _ h2, forall₂_map_eq (mapM_ok_forall₂ h1) (f := val ρ) (fun a x hx => ih _ _ hx), (val_linear ρ).plus]
    | times l =>
      obtain ⟨l', h1, h2⟩ := Except.bind_ok h
      obtain ⟨ss, h3, h4⟩ := Except.bind_ok h2
      rw [expandEnd_val hΓ ih h4, forall₂_map_eq (mapM_ok_forall₂ h3) (f := fun c => (c.map (val ρ)).prod), cart_val, List.map_map, val_times]
      · congr 1
        rw [← forall₂_map_eq (mapM_ok_forall₂ h1) (f := val ρ) (g := val ρ) (fun a x hx => ih _ _ hx)]
        apply List.map_congr_left
        intro x _
        exact summandsOf_val x
      · intro c x hc
        refine foldFirst_prod (fun a b r h => ?_) hc
        have := (times_sound hΓ n).1 _ _ h
        simpa using this
    | scal c t =>
      obtain ⟨e, h1, h2⟩ := Except.bind_ok h
      obtain ⟨ss, h3, h4⟩ := Except.bind_ok h2
      rw [expandEnd_val hΓ ih h4, forall₂_map_eq (mapM_ok_forall₂ h3) (f := fun x => c • val ρ x) (fun a x hx => hm _ _ _ hx)]
      have := summandsOf_val (ρ := ρ) e
      rw [ih _ _ h1] at this
      rw [(val_linear ρ).scal, ← this, List.smul_sum, List.map_map]
      rfl
    | comm a b =>
      obtain ⟨a', h1, h2⟩ := Except.bind_ok h
      obtain ⟨b', h3, h4⟩ := Except.bind_ok h2
      obtain ⟨ss, h5, h6⟩ := Except.bind_ok h4
      rw [hp _ _ h6, forall₂_map_eq (mapM_ok_forall₂ h5) (f := fun p => val ρ p.1 * val ρ p.2 - val ρ p.2 * val ρ p.1)
        (fun p x hx => commCreate_val hΓ n _ _ _ hx), commPairs_val, summandsOf_val, summandsOf_val, ih _ _ h1, ih _ _ h3, val]
    | atom a => cases h; rfl
    | zero => cases h; rfl
    | one => cases h; rfl

end Alg
end QNET.QAlg
