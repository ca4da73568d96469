import Verif.Super.Thm40
import Verif.Hilbert.Ordering

/-! # C40: ordering of the factors of a product of super-operators (`SuperCommutativeHSOrder`) -/

namespace QNET.Super

open QNET.Hilbert QNET.Order

/-- the classes the ordering distinguishes -/
inductive Kind where
  | pre
  | post
  | other
deriving DecidableEq

/-- a super-operator as the ordering sees it -/
structure SOpd where
  kind : Kind
  opd : Opd

/-- `SuperCommutativeHSOrder.__lt__`, super_operator_algebra.py lines 128-138 -/
def superLt (a b : SOpd) : Bool := match a.kind, b.kind with
  | .pre, .post => true
  | .post, .pre => false
  | _, _ => disjLt a.opd b.opd

/-- `orderby` for `SuperOperatorTimes` -/
def orderSuper (ops : List SOpd) : List SOpd := pysort superLt ops

/-- Specification: two super-operators that commute for a structural reason: a left and a right multiplication, or disjoint spaces. -/
def Commuting (a b : SOpd) : Prop :=
  (a.kind = .pre ∧ b.kind = .post) ∨ (a.kind = .post ∧ b.kind = .pre) ∨ DisjointOps a.opd b.opd

theorem swaps_of_sw {α : Type} {lt : α → α → Bool} {R : α → α → Prop} {ops : List α} (hW : StrictWeak lt (fun a => a ∈ ops))
    (hR : ∀ a ∈ ops, ∀ b ∈ ops, lt b a = true → R a b) : Swaps R ops (pysort lt ops) := by
  rw [pysort_eq_isort hW ops (fun _ h => h)]
  have key : ∀ l : List α, (∀ a ∈ l, a ∈ ops) → Swaps R l (isort (leOf lt) l) := by
    intro l
    induction l with
    | nil => intro _; exact .refl _
    | cons a t ih =>
      intro h
      refine (Swaps.cons a (ih (fun x hx => h x (by simp [hx])))).trans ?_
      have hins : ∀ m : List α, (∀ x ∈ m, x ∈ ops) → Swaps R (a :: m) (insertBy (leOf lt) a m) := by
        intro m
        induction m with
        | nil => intro _; exact .refl _
        | cons b m ihm =>
          intro hm
          rw [QNET.insertBy]
          split
          · exact .refl _
          · rename_i hab
            refine Swaps.trans ?_ (Swaps.cons b (ihm (fun x hx => hm x (by simp [hx]))))
            exact Swaps.step (u := []) (.refl _) (hR a (h a (by simp)) b (hm b (by simp)) (by simpa [leOf] using hab))
      exact hins _ (fun x hx => h x (by
        have := (isort_perm (leOf lt) t).mem_iff.mp hx
        simp [this]))
  exact key ops (fun _ h => h)

theorem commuting_of_lt {a b : SOpd} (ha : a.opd.space ≠ .full) (h : superLt b a = true) : Commuting a b := by
  unfold superLt at h
  split at h
  · rename_i h1 h2; exact Or.inr (Or.inl ⟨h2, h1⟩)
  · cases h
  · exact Or.inr (Or.inr (disjointOps_symm (disj_of_lt ha h)))

/-- On left and right multiplications whose spaces are pairwise equal or disjoint, the comparison is a strict weak order: the order of the kinds first,
that of the spaces second. -/
theorem superLt_strictWeak {ops : List SOpd} (hk : ∀ a ∈ ops, a.kind ≠ .other)
    (hW : StrictWeak disjLt (fun o => ∃ a ∈ ops, a.opd = o)) : StrictWeak superLt (fun a => a ∈ ops) := by
  have hm : ∀ a ∈ ops, ∃ a' ∈ ops, a'.opd = a.opd := fun a ha => ⟨a, ha, rfl⟩
  refine ⟨?_, ?_, ?_⟩
  · intro a ha
    have := hk a ha
    have h2 := hW.irrefl _ (hm a ha)
    unfold superLt
    revert this
    cases a.kind <;> simp_all
  · intro a b ha hb h
    have h1 := hk a ha
    have h2 := hk b hb
    have h3 := hW.asymm _ _ (hm a ha) (hm b hb)
    unfold superLt at h ⊢
    revert h1 h2 h
    cases a.kind <;> cases b.kind <;> simp_all
  · intro a b c ha hb hc h
    have h1 := hk a ha
    have h2 := hk b hb
    have h3 := hk c hc
    have h4 := hW.neg_trans _ _ _ (hm a ha) (hm b hb) (hm c hc)
    unfold superLt at h ⊢
    revert h1 h2 h3 h
    cases a.kind <;> cases b.kind <;> cases c.kind <;> simp_all

/-- C40 (partial): ordering the factors of a product of left and right multiplications with operators whose spaces are pairwise equal or disjoint only
swaps neighbours that commute, so the product keeps its action. Missing: products with further super-operators, for which this is
false (`C40_refuted_order`). -/
theorem C40_order_partial {ops : List SOpd} (hk : ∀ a ∈ ops, a.kind ≠ .other) (hr : ∀ a ∈ ops, Reachable a.opd.space)
    (hf : ∀ a ∈ ops, a.opd.space ≠ .full ∧ a.opd.space ≠ .trivial)
    (hb : ∀ a ∈ ops, ∀ b ∈ ops, a.opd.space = b.opd.space ∨ DisjointOps a.opd b.opd) :
    Swaps Commuting ops (orderSuper ops) ∧
    ∀ (M : Type) [Monoid M] (v : SOpd → M), (∀ a b, Commuting a b → v a * v b = v b * v a) →
      ((orderSuper ops).map v).prod = (ops.map v).prod := by
  have h0 := strictWeak_blocks (ops := ops.map SOpd.opd) (by simpa using hr) (by simpa using fun a ha => (hf a ha).1) (by simpa using hb)
    (by
      intro a ha b _ ht
      obtain ⟨x, hx, rfl⟩ := List.mem_map.mp ha
      exact absurd ht (hf x hx).2)
  have h1 : StrictWeak disjLt (fun o => ∃ a ∈ ops, a.opd = o) := by simpa [List.mem_map] using h0
  have h := swaps_of_sw (superLt_strictWeak hk h1) (fun a ha b _ hab => commuting_of_lt (hf a ha).1 hab)
  exact ⟨h, fun M _ v hv => h.prod_eq v hv⟩

/-- products of two factors are always ordered correctly -/
theorem C40_order_pair (a b : SOpd) (ha : a.opd.space ≠ .full) :
    orderSuper [a, b] = [a, b] ∨ (orderSuper [a, b] = [b, a] ∧ Commuting a b) := by
  unfold orderSuper pysort
  by_cases h : superLt b a = true
  · right
    exact ⟨by simp [h, descRun], commuting_of_lt ha h⟩
  · left
    simp [h, ascRun]

/-- operands on space 1 -/
def so (k : Kind) (n : ℕ) : SOpd := ⟨k, ⟨.loc l1, [.str ['a']], n⟩⟩

/-- the hypotheses of `C40_order_partial` are met by `SPost(A1) * SPre(B2) * SPost(C2) * SPre(D1)`, which becomes `SPre(D1) SPre(B2) SPost(A1) SPost(C2)` -/
example : let ops : List SOpd := [so .post 0, ⟨.pre, ⟨.loc l2, [.str ['b']], 1⟩⟩, ⟨.post, ⟨.loc l2, [.str ['c']], 2⟩⟩, so .pre 3]
    ((∀ a ∈ ops, a.kind ≠ .other) ∧ (∀ a ∈ ops, Reachable a.opd.space) ∧ (∀ a ∈ ops, a.opd.space ≠ .full ∧ a.opd.space ≠ .trivial)) ∧
    (orderSuper ops).map (fun o => o.opd.name) = [3, 1, 0, 2] := by
  refine ⟨⟨by decide, ?_, by decide⟩, by decide +kernel⟩
  intro a ha
  simp only [List.mem_cons, List.not_mem_nil, or_false] at ha
  rcases ha with rfl | rfl | rfl | rfl
  · exact l1_reachable
  · exact l2_reachable
  · exact l2_reachable
  · exact l1_reachable

/-- C40 is false in general: ordering `SPost(A) * S * SPost(B) * T * SPost(D) * SPre(C)`, with all operators on the same space, moves `SPre(C)` past the
symbol `T`, with which it does not commute. -/
theorem C40_refuted_order : ∃ (ops : List SOpd) (a b : SOpd), (∀ o ∈ ops, Reachable o.opd.space ∧ o.opd.space ≠ .full) ∧ ¬ Commuting a b ∧
    (∃ u v w, ops = u ++ a :: v ++ b :: w) ∧ (∃ u v w, orderSuper ops = u ++ b :: v ++ a :: w) ∧ (ops.map (fun o => o.opd.name)).Nodup ∧
    ∃ v : SOpd → FreeMonoid ℕ, (∀ a ∈ ops, ∀ b ∈ ops, Commuting a b → v a * v b = v b * v a) ∧
      ((orderSuper ops).map v).prod ≠ (ops.map v).prod := by
  have horder : orderSuper [so .post 0, so .other 1, so .post 2, so .other 3, so .post 4, so .pre 5]
      = [so .post 0, so .other 1, so .pre 5, so .post 2, so .other 3, so .post 4] := by kernel_rfl
  have hd : ∀ (i j : ℕ) (k l : Kind), ¬ DisjointOps (so k i).opd (so l j).opd := by
    rintro i j k l ⟨f, g, h1, h2, h3⟩
    have e1 : factors (so k i).opd.space = some {l1} := rfl
    have e2 : factors (so l j).opd.space = some {l1} := rfl
    rw [e1] at h1; rw [e2] at h2
    injection h1 with h1; injection h2 with h2
    subst h1; subst h2
    simp at h3
  have hTC : ¬ Commuting (so .other 3) (so .pre 5) := by
    rintro (⟨h, -⟩ | ⟨h, -⟩ | h)
    · cases h
    · cases h
    · exact hd _ _ _ _ h
  refine ⟨_, so .other 3, so .pre 5, ?_, hTC, ⟨[so .post 0, so .other 1, so .post 2], [so .post 4], [], rfl⟩,
    ⟨[so .post 0, so .other 1], [so .post 2], [so .post 4], horder⟩, by decide +kernel,
    fun o => if o.opd.name = 3 ∨ o.opd.name = 5 then FreeMonoid.of o.opd.name else 1, ?_, ?_⟩
  · intro o ho
    simp only [List.cons_append, List.nil_append, List.append_assoc, List.mem_cons, List.not_mem_nil, or_false] at ho
    rcases ho with rfl | rfl | rfl | rfl | rfl | rfl <;> exact ⟨l1_reachable, by decide⟩
  · intro a ha b hb h
    simp only [List.cons_append, List.nil_append, List.append_assoc, List.mem_cons, List.not_mem_nil, or_false] at ha hb
    rcases ha with rfl | rfl | rfl | rfl | rfl | rfl <;> rcases hb with rfl | rfl | rfl | rfl | rfl | rfl <;> first
      | rfl
      | exact absurd h hTC
      | (exfalso
         rcases h with ⟨-, h⟩ | ⟨h, -⟩ | h
         · cases h
         · cases h
         · exact hd _ _ _ _ h)
  · rw [show [so Kind.post 0, so Kind.other 1, so Kind.post 2] ++ so Kind.other 3 :: [so Kind.post 4] ++ [so Kind.pre 5]
      = [so .post 0, so .other 1, so .post 2, so .other 3, so .post 4, so .pre 5] from rfl, horder]
    intro h
    have h' := congrArg FreeMonoid.toList h
    revert h'
    decide +kernel

end QNET.Super
