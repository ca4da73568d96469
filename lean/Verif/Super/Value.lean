import Verif.Super.Model
import Mathlib.Algebra.Algebra.Bilinear
import Mathlib.Algebra.Module.LinearMap.End

/-! # The action of super-operators, and soundness of their construction -/

namespace QNET.Super

open QNET.Perm (Res Err)
open QNET.QAlg (QX Ctx mulScal mul val SoundCtx)
open QNET.Indexed (Except.bind_ok mapM_ok_cons mapM_ok_forall₂)

variable {K : Type} [CommRing K] [DecidableEq K] {A : Type} [Ring A] [Algebra K A]

section
variable (ρ : ℕ → A) (σ σ' : ℕ → Module.End K A)

mutual
/-- The linear map on operators denoted by a super-operator, for given actions of the symbols: `SPre(A)` multiplies with `A` from the left, `SPost(A)`
from the right, a product is the composition. -/
def sval : SX K → Module.End K A
  | .sym a => σ a
  | .symAdj a => σ' a
  | .zero => 0
  | .one => 1
  | .spre a => LinearMap.mulLeft K (val ρ a)
  | .spost a => LinearMap.mulRight K (val ρ a)
  | .scal c t => c • sval t
  | .plus l => (svals l).sum
  | .times l => (svals l).prod
/-- values of a list -/
def svals : List (SX K) → List (Module.End K A)
  | [] => []
  | x :: l => sval x :: svals l
end

omit [DecidableEq K] in
theorem svals_map (l : List (SX K)) : svals ρ σ σ' l = l.map (sval ρ σ σ') := by
  induction l with
  | nil => simp [svals]
  | cons x l ih => simp [svals, ih]

omit [DecidableEq K] in
theorem sval_plus (l : List (SX K)) : sval ρ σ σ' (.plus l) = (l.map (sval ρ σ σ')).sum := by simp [sval, svals_map]

omit [DecidableEq K] in
theorem sval_times (l : List (SX K)) : sval ρ σ σ' (.times l) = (l.map (sval ρ σ σ')).prod := by simp [sval, svals_map]

/-- What is required of the rest of the code: the operator algebra is sound, sorting a sum permutes it, sorting a product does not change its action, and
an application that no rule simplifies denotes the result of the action. -/
structure SoundSCtx (S : SCtx K) : Prop where
  ops : SoundCtx S.Γ ρ
  sortPlus : ∀ l, (S.sortPlus l).Perm l
  sortTimes : ∀ l, ((S.sortTimes l).map (sval ρ σ σ')).prod = (l.map (sval ρ σ σ')).prod
  stuck : ∀ s X a, S.stuck s X = some a → ρ a = sval ρ σ σ' s (val ρ X)
  unstuck : ∀ a s X, S.unstuck a = some (s, X) → ρ a = sval ρ σ σ' s (val ρ X)

end

variable {ρ : ℕ → A} {σ σ' : ℕ → Module.End K A} {S : SCtx K}

theorem smul_val : ∀ (n : ℕ) (c : K) (t r : SX K), smul n c t = .ok r → sval ρ σ σ' r = c • sval ρ σ σ' t := by
  intro n
  induction n with
  | zero => intro c t r h; cases h
  | succ n ih =>
    intro c t r h
    unfold smul at h
    split at h
    · rename_i hc; cases h; rw [hc, one_smul]
    split at h
    · rename_i hc; cases h; rw [hc, zero_smul]; rfl
    split at h
    · cases h; simp [sval]
    · rw [ih _ _ _ h]; simp [sval, mul_smul]
    · cases h; rfl

/-- the value of a coefficient map -/
def mapVal (v : SX K → Module.End K A) (m : List (SX K × K)) : Module.End K A := (m.map (fun tc => tc.2 • v tc.1)).sum

theorem addTerm_val (v : SX K → Module.End K A) (m : List (SX K × K)) (t : SX K) (c : K) : mapVal v (addTerm m t c) = mapVal v m + c • v t := by
  induction m with
  | nil => simp [mapVal, addTerm]
  | cons p m ih =>
    obtain ⟨t', c'⟩ := p
    unfold addTerm
    split
    · rename_i h
      subst h
      simp only [mapVal, List.map_cons, List.sum_cons, add_smul]
      rw [add_assoc, add_assoc, add_comm (c • v t')]
    · simp only [mapVal, List.map_cons, List.sum_cons] at ih ⊢
      rw [ih, add_assoc]

theorem split_val (x : SX K) : (split x).2 • sval ρ σ σ' (split x).1 = sval ρ σ σ' x := by
  cases x <;> simp [split, sval]

theorem coeffMap_val (ops : List (SX K)) : mapVal (sval ρ σ σ') (coeffMap ops) = (ops.map (sval ρ σ σ')).sum := by
  have : ∀ (ops : List (SX K)) (m : List (SX K × K)), mapVal (sval ρ σ σ') (ops.foldl (fun m op => addTerm m (split op).1 (split op).2) m)
      = mapVal (sval ρ σ σ') m + (ops.map (sval ρ σ σ')).sum := by
    intro ops
    induction ops with
    | nil => intro m; simp
    | cons x l ih =>
      intro m
      rw [List.foldl_cons, ih, addTerm_val, split_val, List.map_cons, List.sum_cons, add_assoc]
  rw [coeffMap, this]; simp [mapVal]

theorem plus_val (hs : ∀ l, (S.sortPlus l).Perm l) {n : ℕ} {ops : List (SX K)} {r : SX K} (h : plusCreate S n ops = .ok r) :
    sval ρ σ σ' r = (ops.map (sval ρ σ σ')).sum := by
  unfold plusCreate at h
  obtain ⟨fops, h1, h2⟩ := Except.bind_ok h
  cases h2
  have e1 : ∀ l : List (SX K), sval ρ σ σ' (wrapPlus l) = (l.map (sval ρ σ σ')).sum := by
    intro l
    match l with
    | [] => simp [wrapPlus, sval]
    | [x] => simp [wrapPlus]
    | x :: y :: l => simp only [wrapPlus, sval_plus]
  have e2 : ∀ l : List (SX K), ((l.filter (fun op => !decide (op = .zero))).map (sval ρ σ σ')).sum = (l.map (sval ρ σ σ')).sum := by
    intro l
    induction l with
    | nil => rfl
    | cons x l ih =>
      rw [List.filter_cons]
      split
      · simp [ih]
      · rename_i h
        have : x = .zero := by simpa using h
        simp [ih, this, sval]
  have e3 : ∀ ops : List (SX K), ((Engine.assoc flatPlus ops).map (sval ρ σ σ')).sum = (ops.map (sval ρ σ σ')).sum := by
    intro ops
    induction ops with
    | nil => rfl
    | cons x l ih =>
      simp only [Engine.assoc, List.flatMap_cons, List.map_append, List.sum_append, List.map_cons, List.sum_cons] at ih ⊢
      rw [ih]
      congr 1
      cases x <;> simp [flatPlus, sval_plus]
  have e4 : (fops.map (sval ρ σ σ')).sum = mapVal (sval ρ σ σ') (coeffMap (S.sortPlus (Engine.assoc flatPlus ops))) := by
    unfold mapVal
    have h3 := mapM_ok_forall₂ h1
    revert h3
    generalize coeffMap (S.sortPlus (Engine.assoc flatPlus ops)) = m
    intro h3
    clear h1 h e1 e2 e3
    induction h3 with
    | nil => rfl
    | cons h1 _ ih => simp [smul_val _ _ _ _ h1, ih]
  rw [e1, e2, e4, coeffMap_val, ((hs _).map _).sum_eq, e3]

theorem spre_val : ∀ (n : ℕ) (a : QX K) (r : SX K), spreCreate n a = .ok r → sval ρ σ σ' r = LinearMap.mulLeft K (val ρ a) := by
  intro n
  induction n with
  | zero => intro a r h; cases h
  | succ n ih =>
    intro a r h
    unfold spreCreate at h
    split at h
    · obtain ⟨s, h1, h2⟩ := Except.bind_ok h
      rw [smul_val _ _ _ _ h2, ih _ _ h1]
      ext x; simp [val]
    · cases h; ext x; simp [val, sval]
    · cases h; ext x; simp [val, sval]
    · cases h; rfl

theorem spost_val : ∀ (n : ℕ) (a : QX K) (r : SX K), spostCreate n a = .ok r → sval ρ σ σ' r = LinearMap.mulRight K (val ρ a) := by
  intro n
  induction n with
  | zero => intro a r h; cases h
  | succ n ih =>
    intro a r h
    unfold spostCreate at h
    split at h
    · obtain ⟨s, h1, h2⟩ := Except.bind_ok h
      rw [smul_val _ _ _ _ h2, ih _ _ h1]
      ext x; simp [val]
    · cases h; ext x; simp [val, sval]
    · cases h; ext x; simp [val, sval]
    · cases h; rfl

theorem mul_val (hΓ : SoundCtx S.Γ ρ) {n : ℕ} {a b r : QX K} (h : mul S.Γ n a b = .ok r) : val ρ r = val ρ a * val ρ b := by
  rw [(QAlg.times_sound hΓ n).1 _ _ h]; simp

theorem flatTimes_eq {r : SX K} {l : List (SX K)} (h : flatTimes r = some l) : r = .times l := by
  cases r <;> simp [flatTimes] at h
  rw [h]

theorem times_sound (hS : SoundSCtx ρ σ σ' S) : ∀ n,
    (∀ ops r, timesCreate S n ops = .ok r → sval ρ σ σ' r = (ops.map (sval ρ σ σ')).prod) ∧
    (∀ x y r, binRule S n x y = .ok (some r) → sval ρ σ σ' r = sval ρ σ σ' x * sval ρ σ σ' y) := by
  intro n
  induction n with
  | zero =>
    refine ⟨fun ops r h => ?_, fun x y r h => ?_⟩
    · rw [timesCreate] at h; cases h
    · rw [binRule] at h; cases h
  | succ n ih =>
    obtain ⟨ih1, ih2⟩ := ih
    refine ⟨fun ops r h => ?_, fun x y r h => ?_⟩
    · have hs : Engine.Sound (fun x a => sval ρ σ σ' x = a) (binRule S n) (fun x => decide (x = .one)) flatTimes :=
        ⟨fun x y r a b hx hy hr => by rw [ih2 x y r hr, hx, hy],
         fun r a hn ha => by rw [← ha, of_decide_eq_true hn]; simp [sval],
         fun r l a hl ha => by
           refine ⟨l.map (sval ρ σ σ'), ?_, ?_⟩
           · rw [List.forall₂_map_right_iff]; exact List.forall₂_same.mpr (fun _ _ => rfl)
           · rw [← ha, flatTimes_eq hl, sval_times]⟩
      have h0 : ∀ l : List (SX K), Engine.Prod (fun x a => sval ρ σ σ' x = a) l (l.map (sval ρ σ σ')).prod := fun l =>
        ⟨l.map (sval ρ σ σ'), by rw [List.forall₂_map_right_iff]; exact List.forall₂_same.mpr (fun _ _ => rfl), rfl⟩
      have h0' : ∀ (l : List (SX K)) m, Engine.Prod (fun x a => sval ρ σ σ' x = a) l m → (l.map (sval ρ σ σ')).prod = m := by
        rintro l m ⟨ms, h1, rfl⟩
        congr 1
        induction h1 with
        | nil => rfl
        | cons h1 _ ih => simp [h1, ih]
      have h1 := Engine.prod_assoc hs.flat (h0 ops)
      have h2 := h0' _ _ h1
      rw [← hS.sortTimes] at h2
      have h3 := h0 (S.sortTimes (Engine.assoc flatTimes ops))
      rw [h2] at h3
      have h4 := Engine.filterNeutral_sound hs.neutral (ne := .one) (by simp [sval]) h3
      rw [timesCreate] at h; unfold timesStep at h
      split at h
      · rename_i hz
        cases h
        obtain ⟨o, ho, hoz⟩ := List.any_eq_true.mp hz
        have : o = .zero := of_decide_eq_true hoz
        subst this
        rw [List.prod_eq_zero]
        · rfl
        · exact List.mem_map.mpr ⟨_, ho, rfl⟩
      cases e : Engine.filterNeutral SX.one (fun x => decide (x = .one)) (S.sortTimes (Engine.assoc flatTimes ops)) with
      | single x =>
        rw [e] at h h4
        cases h
        exact h4
      | operands l =>
        rw [e] at h h4
        simp only at h
        obtain ⟨o, h5, h6⟩ := QNET.Indexed.Except.map_ok h
        have h7 := Engine.matchReplaceBinary_sound hs (ne := .one) (by simp [sval]) h4 h5
        cases o with
        | single x => cases h6; exact h7
        | operands l' => cases h6; rw [wrapTimes, sval_times]; exact h0' _ _ h7
    · rw [binRule] at h; unfold binStep at h
      split at h
      · obtain ⟨s, h1, h2⟩ := Except.bind_ok h
        obtain ⟨t, h3, h4⟩ := Except.bind_ok h1
        cases h2
        rw [smul_val _ _ _ _ h4, ih1 _ _ h3]
        simp [sval]
      · obtain ⟨s, h1, h2⟩ := Except.bind_ok h
        obtain ⟨t, h3, h4⟩ := Except.bind_ok h1
        cases h2
        rw [smul_val _ _ _ _ h4, ih1 _ _ h3]
        simp [sval]
      · obtain ⟨s, h1, h2⟩ := Except.bind_ok h
        obtain ⟨t, h3, h4⟩ := Except.bind_ok h1
        cases h2
        rw [spre_val _ _ _ h4, mul_val hS.ops h3]
        ext x; simp [sval, mul_assoc]
      · obtain ⟨s, h1, h2⟩ := Except.bind_ok h
        obtain ⟨t, h3, h4⟩ := Except.bind_ok h1
        cases h2
        rw [spost_val _ _ _ h4, mul_val hS.ops h3]
        ext x; simp [sval, mul_assoc]
      · cases h

end QNET.Super
