import Verif.Super.Value
import Verif.Util.KernelRfl

/-! # C40: super-operator rewriting preserves the action on operators -/

namespace QNET.Super

open QNET.Perm (Res Err)
open QNET.QAlg (QX Ctx mulScal mul val SoundCtx)
open QNET.Indexed (Except.bind_ok mapM_ok_cons mapM_ok_forall₂)

variable {K : Type} [CommRing K] [DecidableEq K] {A : Type} [Ring A] [Algebra K A]
variable {ρ : ℕ → A} {σ σ' : ℕ → Module.End K A} {S : SCtx K}

/-- C40: sums, products and multiples of super-operators, and `SPre.create(A)`, `SPost.create(A)`, act on every operator as they should: sums add, products
compose, `SPre(A) X = A X`, `SPost(A) X = X A`. -/
theorem C40_create (hS : SoundSCtx ρ σ σ' S) {n : ℕ} {r : SX K} (X : A) :
    (∀ ops, timesCreate S n ops = .ok r → sval ρ σ σ' r X = ops.foldr (fun s x => sval ρ σ σ' s x) X) ∧
    (∀ ops, plusCreate S n ops = .ok r → sval ρ σ σ' r X = (ops.map (fun s => sval ρ σ σ' s X)).sum) ∧
    (∀ c s, smul n c s = .ok r → sval ρ σ σ' r X = c • sval ρ σ σ' s X) ∧
    (∀ a, spreCreate n a = .ok r → sval ρ σ σ' r X = val ρ a * X) ∧
    (∀ a, spostCreate n a = .ok r → sval ρ σ σ' r X = X * val ρ a) := by
  refine ⟨fun ops h => ?_, fun ops h => ?_, fun c s h => ?_, fun a h => ?_, fun a h => ?_⟩
  · rw [(times_sound hS n).1 _ _ h]
    clear h
    induction ops with
    | nil => simp
    | cons s l ih => simp only [List.map_cons, List.prod_cons, List.foldr_cons, Module.End.mul_apply, ih]
  · rw [plus_val hS.sortPlus h]
    clear h
    induction ops with
    | nil => simp
    | cons s l ih => simp only [List.map_cons, List.sum_cons, LinearMap.add_apply, ih]
  · rw [smul_val _ _ _ _ h]; rfl
  · rw [spre_val _ _ _ h]; rfl
  · rw [spost_val _ _ _ h]; rfl

theorem stuckAt_val (hS : SoundSCtx ρ σ σ' S) {s : SX K} {X r : QX K} (h : stuckAt S s X = .ok r) : val ρ r = sval ρ σ σ' s (val ρ X) := by
  unfold stuckAt at h
  cases e : S.stuck s X with
  | none => rw [e] at h; cases h
  | some a =>
    rw [e] at h
    cases h
    exact hS.stuck _ _ _ e

theorem last_val {l : List (SX K)} {x : SX K} (h : l.getLast? = some x) (Y : A) :
    sval ρ σ σ' (.times l) Y = ((l.dropLast).map (sval ρ σ σ')).prod (sval ρ σ σ' x Y) := by
  rw [sval_times]
  conv => lhs; rw [← List.dropLast_append_getLast? x h, List.map_append, List.prod_append]
  simp

/-- C40: applying a super-operator to an operator with `*` yields an operator denoting the result of the action. -/
theorem C40_apply (hS : SoundSCtx ρ σ σ' S) : ∀ (n : ℕ) (s : SX K) (X r : QX K), apply S n s X = .ok r → val ρ r = sval ρ σ σ' s (val ρ X) := by
  intro n
  induction n with
  | zero => intro s X r h; cases h
  | succ n ih =>
    intro s X r h
    obtain ⟨hm, hp⟩ := QAlg.lin_sound (QAlg.val_linear ρ) hS.ops.sortPlus n
    rw [apply] at h
    unfold applyStep at h
    split at h
    · obtain ⟨l', h1, h2⟩ := Except.bind_ok h
      rename_i l X
      rw [hp _ _ h2, sval_plus]
      have h3 := mapM_ok_forall₂ h1
      clear h1 h2 h
      induction h3 with
      | nil => simp
      | cons h1 _ ih' => simp [ih _ _ _ h1, ih']
    · cases h; simp [sval]
    · cases h; simp [sval, val]
    · obtain ⟨t, h1, h2⟩ := Except.bind_ok h
      rw [hm _ _ _ h2, ih _ _ _ h1]
      simp [sval]
    · obtain ⟨t, h1, h2⟩ := Except.bind_ok h
      rw [hm _ _ _ h2, ih _ _ _ h1]
      simp [val]
    · split at h
      · rename_i sB C hu
        obtain ⟨s', h1, h2⟩ := Except.bind_ok h
        rw [ih _ _ _ h2, (times_sound hS n).1 _ _ h1]
        unfold unstuckOf at hu
        split at hu
        · simp only [List.map_cons, List.map_nil, List.prod_cons, List.prod_nil, mul_one, Module.End.mul_apply]
          congr 1
          exact (hS.unstuck _ _ _ hu).symm
        · cases hu
      · unfold applyRest at h
        split at h
        · rw [mul_val hS.ops h]; rfl
        · rw [mul_val hS.ops h]; rfl
        · split at h
          · rename_i hl
            split at h
            · exact stuckAt_val hS h
            · obtain ⟨X', h1, h⟩ := Except.bind_ok h
              obtain ⟨s', h2, h3⟩ := Except.bind_ok h
              rw [ih _ _ _ h3, ih _ _ _ h1, (times_sound hS n).1 _ _ h2, last_val hl]
          · rename_i hl
            split at h
            · exact stuckAt_val hS h
            · obtain ⟨X', h1, h⟩ := Except.bind_ok h
              obtain ⟨s', h2, h3⟩ := Except.bind_ok h
              rw [ih _ _ _ h3, ih _ _ _ h1, (times_sound hS n).1 _ _ h2, last_val hl]
          · exact stuckAt_val hS h
        · exact stuckAt_val hS h

/-- C40: whenever `adjoint()` of a super-operator returns a super-operator, that is the adjoint with respect to any trace:
`Tr[M (L N)] = Tr[(L* M) N]`. (`adjoint()` does not return anything for scalar multiples, see `C40_refuted_adjoint`.) -/
theorem C40_adjoint_partial (hS : SoundSCtx ρ σ σ' S) {T : Type} [AddCommMonoid T] (tr : A →+ T) (hcyc : ∀ x y, tr (x * y) = tr (y * x))
    (hσ : ∀ a M N, tr (M * σ a N) = tr (σ' a M * N)) (hσ' : ∀ a M N, tr (M * σ' a N) = tr (σ a M * N)) :
    ∀ (n : ℕ) (s r : SX K), adjoint S n s = .ok (some r) → ∀ M N, tr (M * sval ρ σ σ' s N) = tr (sval ρ σ σ' r M * N) := by
  intro n
  induction n with
  | zero => intro s r h; cases h
  | succ n ih =>
    intro s r h M N
    have hid : ∀ {l' : List (Option (SX K))} {l'' : List (SX K)}, l'.mapM id = some l'' → l' = l''.map some := by
      intro l'
      induction l' with
      | nil => intro l'' h; simp at h; subst h; rfl
      | cons o l' ihl =>
        intro l'' h
        cases o with
        | none => simp at h
        | some x =>
          rw [List.mapM_cons] at h
          simp only [id] at h
          cases e : l'.mapM id with
          | none => rw [e] at h; cases h
          | some t => rw [e] at h; cases h; rw [ihl e]; rfl
    rw [adjoint] at h
    unfold adjointStep at h
    split at h
    · cases h; exact hσ _ _ _
    · cases h; exact hσ' _ _ _
    · cases h; simp [sval]
    · cases h; simp [sval]
    · cases h
      show tr (M * (_ * N)) = tr ((M * _) * N)
      rw [mul_assoc]
    · cases h
      show tr (M * (N * _)) = tr ((_ * M) * N)
      rw [← mul_assoc, hcyc, mul_assoc]
    · cases h
    · rename_i l
      obtain ⟨l', h1, h2⟩ := Except.bind_ok h
      cases e : l'.mapM id with
      | none => simp only [e] at h2; cases h2
      | some l'' =>
        simp only [e] at h2
        cases h2
        have := hid e
        subst this
        rw [sval_plus, sval_plus]
        have h3 := mapM_ok_forall₂ h1
        rw [List.forall₂_map_right_iff] at h3
        clear h1 h e
        induction h3 with
        | nil => simp
        | cons h1 _ ih' =>
          simp only [List.map_cons, List.sum_cons, LinearMap.add_apply, mul_add, add_mul, map_add]
          rw [ih _ _ h1, ih']
    · rename_i l
      obtain ⟨l', h1, h2⟩ := Except.bind_ok h
      cases e : l'.mapM id with
      | none => simp only [e] at h2; cases h2
      | some l'' =>
        simp only [e] at h2
        obtain ⟨r', h3, h4⟩ := QNET.Indexed.Except.map_ok h2
        injection h4 with h4
        subst h4
        have := hid e
        subst this
        rw [sval_times, (times_sound hS n).1 _ _ h3]
        have h5 := mapM_ok_forall₂ h1
        rw [List.forall₂_map_right_iff] at h5
        have key : ∀ (l m : List (SX K)), List.Forall₂ (fun a b => adjoint S n a = .ok (some b)) l m → ∀ M N,
            tr (M * (l.reverse.map (sval ρ σ σ')).prod N) = tr ((m.map (sval ρ σ σ')).prod M * N) := by
          intro l m hlm
          induction hlm with
          | nil => intro M N; simp
          | cons h1 _ ih' =>
            intro M N
            simp only [List.reverse_cons, List.map_append, List.prod_append, List.map_cons, List.map_nil, List.prod_cons, List.prod_nil, mul_one,
              Module.End.mul_apply]
            rw [ih', ih _ _ h1]
        have := key _ _ h5 M N
        rwa [List.reverse_reverse] at this

/-- C40 refuted: `adjoint()` of a scalar multiple returns `None`, and that of a sum with such a summand (such as any Liouvillian) never succeeds. -/
theorem C40_refuted_adjoint (S : SCtx K) (n : ℕ) (c : K) (t : SX K) :
    adjoint S (n + 1) (.scal c t) = .ok none ∧ ∀ l, SX.scal c t ∈ l → ∀ r, adjoint S n (.plus l) ≠ .ok r := by
  refine ⟨rfl, fun l hl r h => ?_⟩
  cases n with
  | zero => cases h
  | succ n =>
    rw [adjoint, adjointStep] at h
    obtain ⟨l', h1, h2⟩ := Except.bind_ok h
    have : none ∈ l' := by
      have h3 := mapM_ok_forall₂ h1
      clear h1 h2 h
      induction h3 with
      | nil => cases hl
      | cons h1 _ ih =>
        rcases List.mem_cons.mp hl with e | e
        · subst e
          cases n with
          | zero => cases h1
          | succ n => cases h1; exact List.mem_cons_self
        · exact List.mem_cons_of_mem _ (ih e)
    have hn : l'.mapM id = none := by
      clear h1 h2
      induction l' with
      | nil => cases this
      | cons o l' ih =>
        rcases List.mem_cons.mp this with e | e
        · subst e; rfl
        · rw [List.mapM_cons]
          cases o with
          | none => rfl
          | some x => simp only [id]; rw [ih e]; rfl
    simp only [hn] at h2
    cases h2

/-! ### A concrete case -/

/-- no sorting and no names for unsimplified applications -/
def SCtx.plain (K : Type) : SCtx K := ⟨Ctx.plain K, id, id, fun _ _ => none, fun _ => none⟩

theorem SCtx.plain_sound (ρ : ℕ → A) (σ σ' : ℕ → Module.End K A) : SoundSCtx ρ σ σ' (SCtx.plain K) :=
  ⟨⟨fun _ => .refl _, fun _ => rfl, fun _ _ _ h => by simp [SCtx.plain, Ctx.plain] at h, fun _ _ h => by simp [SCtx.plain, Ctx.plain] at h,
    fun _ _ h => by simp [SCtx.plain, Ctx.plain] at h⟩, fun _ => .refl _, fun _ => rfl, fun _ _ _ h => by simp [SCtx.plain] at h,
    fun _ _ _ h => by simp [SCtx.plain] at h⟩

/-- `SPre(2*A) * SPre(B) * SPost(C) * SPost(D) = 2 * SPre(A*B) * SPost(D*C)`; applied to `X` -/
example : (spreCreate (K := ℤ) 9 (.scal 2 (.atom 0)) >>= fun s =>
    timesCreate (SCtx.plain ℤ) 12 [s, .spre (.atom 1), .spost (.atom 2), .spost (.atom 3)])
      = .ok (.scal 2 (.times [.spre (.times [.atom 0, .atom 1]), .spost (.times [.atom 3, .atom 2])])) := by kernel_rfl
example : apply (SCtx.plain ℤ) 12 (.scal 2 (.times [.spre (.times [.atom 0, .atom 1]), .spost (.times [.atom 3, .atom 2])])) (.atom 7)
      = .ok (.scal 2 (.times [.atom 0, .atom 1, .atom 7, .atom 3, .atom 2])) := by kernel_rfl
/-- the adjoint of `SPre(A) * SPost(B) + SuperOperatorSymbol` -/
example : adjoint (SCtx.plain ℤ) 12 (.plus [.times [.spre (.atom 0), .spost (.atom 1)], .sym 4])
      = .ok (some (.plus [.times [.spre (.atom 1), .spost (.atom 0)], .symAdj 4])) := by kernel_rfl

end QNET.Super
