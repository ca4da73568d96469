import Verif.State.Expand

/-!
# C102: `Operator.expand_in_basis`
-/

namespace QNET.State

open QNET.Perm (Res Err)
open QNET.Trace (Cfg Mat ActsOn embed)
open QNET.Indexed (Except.bind_ok)
open Matrix

/-! ### model -/

section model

variable {ι K : Type} [Fintype ι] [DecidableEq ι] [DecidableEq K] [One K] [Zero K] (mk : Mk ι K) (opSum : List (Op ι K) → Res (Op ι K))
  (scExpand : Sc ι K → Res (Sc ι K))

/-- `is ZeroOperator` -/
def Op.isZero : Op ι K → Bool
  | .zero => true
  | _ => false

/-- `(ket_i.dag() * self * ket_j).expand()`, operator_algebra.py line 121; the expansion of the scalar is a parameter (C100, C101) -/
def matrixElement [Neg K] (n : ℕ) (A : Op ι K) (a b : Ket ι K) : Res (Sc ι K) :=
  eltMul mk n (.bra a) (.op A) >>= fun x => eltMul mk n x (.ket b) >>= fun s =>
  match s with
  | .sc c => scExpand c
  | _ => .error .attributeError

/-- lines 121-123 -/
def basisTerm [Neg K] (n : ℕ) (A : Op ι K) (a b : Ket ι K) : Res (Op ι K) :=
  matrixElement mk scExpand n A a b >>= fun c => rawKetBra a b >>= fun k => mk.opScal c k

/-- the pairs of the double loop of lines 117-120 that are not skipped: `(ket_i, i)` and `(ket_j, j)` -/
def basisPairs (hermitian : Bool) (l : List (Ket ι K)) : List ((Ket ι K × ℕ) × (Ket ι K × ℕ)) :=
  (l.zipIdx.flatMap fun x => l.zipIdx.map fun y => (x, y)).filter fun p => !(decide (p.1.2 > p.2.2) && hermitian)

/-- the terms of lines 117-128 that are not `ZeroOperator`, with a mark of those of the diagonal -/
def basisTerms [Neg K] (n : ℕ) (hermitian : Bool) (A : Op ι K) (l : List (Ket ι K)) : Res (List (Bool × Op ι K)) :=
  (basisPairs hermitian l).mapM (fun p => basisTerm mk scExpand n A p.1.1 p.2.1 >>= fun t => .ok (decide (p.1.2 = p.2.2), t)) >>= fun ts =>
  .ok (ts.filter fun t => !t.2.isZero)

/-- `diag_terms` -/
def diagTerms (ts : List (Bool × Op ι K)) : List (Op ι K) := (ts.filter fun t => t.1).map Prod.snd
/-- `terms` -/
def offTerms (ts : List (Bool × Op ι K)) : List (Op ι K) := (ts.filter fun t => !t.1).map Prod.snd

/-- `OperatorPlusMinusCC(X)`, operator_algebra.py lines 689-734: represented by the sum that it stands for (C98) -/
def plusCC (X : Op ι K) : Op ι K := .plus [X, .adj X]

/-- `expand_in_basis(basis_states, hermitian)` with a list of states, operator_algebra.py lines 115-136; `opSum` is `OperatorPlus.create` -/
def expandInBasis [Neg K] (n : ℕ) (hermitian : Bool) (A : Op ι K) (l : List (Ket ι K)) : Res (Op ι K) :=
  basisTerms mk scExpand n hermitian A l >>= fun ts => opSum (diagTerms ts) >>= fun D =>
  if hermitian then
    if offTerms ts = [] then .ok D else opSum (offTerms ts) >>= fun X => opSum [D, plusCC X]
  else opSum (offTerms ts) >>= fun X => opSum [D, X]

/-- `basis_states` of a local space (hilbert_space_algebra.py lines 379-388): the basis has `dim` levels; `BasisNotSetError` if none is
set -/
def localBasis (dim : ι → Option ℕ) (l : ι) : Res (List (Ket ι K)) :=
  match dim l with
  | none => .error .basisNotSet
  | some m => .ok ((List.range m).map fun n => .basis n l)

/-- `basis_states` of `TrivialSpace` (lines 541-545), of a local space, and of a product of the local spaces `ls` (lines 697-711) -/
def basisStates (dim : ι → Option ℕ) : List ι → Res (List (Ket ι K))
  | [] => .ok [.triv]
  | [l] => localBasis dim l
  | ls => ls.mapM (localBasis dim) >>= fun bs => .ok ((choices bs).map .tensor)

end model

/-! ### specification -/

section thm

variable {ι K : Type} [Fintype ι] [DecidableEq ι] [CommRing K] [StarRing K] [DecidableEq K] {d : ι → ℕ} {I : Interp ι d K} {mk : Mk ι K}
  {opSum : List (Op ι K) → Res (Op ι K)} {scExpand : Sc ι K → Res (Sc ι K)}

/-- `Σ_i |i><i|` -/
def proj (S : Finset ι) (vs : List (Vec d K)) : Mat d K := (vs.map fun v => outer S v v).sum

/-- sums of operators and the expansion of scalars preserve the value -/
structure SumOk (I : Interp ι d K) (opSum : List (Op ι K) → Res (Op ι K)) (scExpand : Sc ι K → Res (Sc ι K)) : Prop where
  opSum : ∀ l r, opSum l = .ok r → (∀ x ∈ l, x.wf d) → r.wf d ∧ r.ev I = (l.map (Op.ev I)).sum
  scExpand : ∀ c r, scExpand c = .ok r → c.wf d → r.wf d ∧ r.ev I = c.ev I

/-! ### proofs -/

theorem outer_mul_outer {S : Finset ι} {f g h k : Vec d K} (x : Cfg d) (hg : DependsOn S g) (hh : DependsOn S h) :
    outer S f g * outer S h k = inner S x g h • outer S f k := by
  ext a b
  rw [mul_apply, smul_apply, smul_eq_mul, inner_free hg hh x b]
  simp only [outer, of_apply]
  by_cases hab : ∀ i ∉ S, a i = b i
  · rw [if_pos hab, inner, Finset.sum_mul]
    refine Finset.sum_congr rfl fun z _ => ?_
    by_cases hz : ∀ i ∉ S, z i = b i
    · rw [if_pos hz, if_pos hz, if_pos fun i hi => (hab i hi).trans (hz i hi).symm]
      ring
    · rw [if_neg hz, if_neg hz]
      simp
  · rw [if_neg hab, mul_zero]
    refine Finset.sum_eq_zero fun z _ => ?_
    by_cases hz : ∀ i ∉ S, z i = b i
    · rw [if_neg fun hc => hab fun i hi => (hc i hi).trans (hz i hi), zero_mul]
    · rw [if_neg hz, mul_zero]

/-- the value of the term for two basis states -/
def termVal (I : Interp ι d K) (S : Finset ι) (A : Op ι K) (a b : Ket ι K) : Mat d K :=
  inner S I.ref (a.ev I) (A.ev I *ᵥ b.ev I) • outer S (a.ev I) (b.ev I)

theorem basisTerm_spec (hs : mk.Sound I) (hst : mk.Safe) (ho : SumOk I opSum scExpand) {n : ℕ} {A : Op ι K} {a b : Ket ι K} {r : Op ι K} {S : Finset ι}
    (h : basisTerm mk scExpand n A a b = .ok r) (hA : A.wf d) (hAS : A.space ⊆ S) (ha : a.wf d) (has : a.space = S) (ha0 : a.isZero = false)
    (hb : b.wf d) (hbs : b.space = S) (hb0 : b.isZero = false) : r.wf d ∧ r.ev I = termVal I S A a b := by
  obtain ⟨c, hc, h⟩ := Except.bind_ok h
  obtain ⟨k, hk, h⟩ := Except.bind_ok h
  obtain ⟨x, hx, hc⟩ := Except.bind_ok hc
  obtain ⟨s, hs', hc⟩ := Except.bind_ok hc
  obtain ⟨A', hA', hx⟩ := Except.bind_ok hx
  obtain ⟨a', ha', hx⟩ := Except.bind_ok hx
  injection hx with hx; subst hx
  obtain ⟨s', hsb, hs'⟩ := Except.bind_ok hs'
  injection hs' with hs'; subst hs'
  obtain ⟨A1, A2⟩ := hs.opAdj _ _ hA' hA
  have e1 := opKet_exp hs hst (S := S) ha' A1 ⟨ha, .inr ⟨ha0, has⟩⟩
  obtain ⟨b1, b2⟩ := braKet_spec hs hst n a' b s' hsb e1.wf hb (e1.okOn.same ⟨hb, .inr ⟨hb0, hbs⟩⟩)
  obtain ⟨c1, c2⟩ := ho.scExpand _ _ hc b1
  obtain ⟨k1, k2⟩ := rawKetBra_spec hk ha hb
  obtain ⟨r1, r2⟩ := hs.opScal _ _ _ h c1 k1
  refine ⟨r1, ?_⟩
  rw [r2, k2, c2, b2, has, termVal, e1.ev, A2]
  congr 1
  have : inner a'.space I.ref (a'.ev I) (b.ev I) = inner S I.ref (a'.ev I) (b.ev I) := by
    rcases e1.sp with h0 | h0
    · rw [h0, Ket.ev, inner_zero_left, inner_zero_left]
    · rw [h0.2]
  rw [e1.ev, A2] at this
  rw [this, inner_mulVec (Op.ev_acts I A hA).star hAS, conjTranspose_conjTranspose]

/-- `|a><a| A |b><b|` -/
theorem termVal_eq {A : Op ι K} {a b : Ket ι K} {S : Finset ι} (hA : A.wf d) (hAS : A.space ⊆ S) (ha : a.wf d) (has : a.space = S)
    (hb : b.wf d) (hbs : b.space = S) : termVal I S A a b = outer S (a.ev I) (a.ev I) * A.ev I * outer S (b.ev I) (b.ev I) := by
  have h1 : DependsOn S (a.ev I) := has ▸ Ket.ev_dep I a ha
  have h2 : DependsOn S (b.ev I) := hbs ▸ Ket.ev_dep I b hb
  rw [mul_assoc, ← outer_mulVec_left (Op.ev_acts I A hA) hAS, termVal, outer_mul_outer I.ref h1 (DependsOn.mulVec (Op.ev_acts I A hA) h2 hAS)]


/-! #### sums over pairs -/

theorem sum_pairs {α M : Type} [AddCommMonoid M] (L L' : List α) (g : α × α → M) :
    ((L.flatMap fun x => L'.map fun y => (x, y)).map g).sum = (L.map fun x => (L'.map fun y => g (x, y)).sum).sum := by
  induction L with
  | nil => rfl
  | cons x L ih =>
    rw [List.flatMap_cons, List.map_append, List.sum_append, ih, List.map_map, List.map_cons, List.sum_cons]
    rfl

theorem sum_swap {α β M : Type} [AddCommMonoid M] (L : List α) (L' : List β) (g : α → β → M) :
    (L.map fun x => (L'.map fun y => g x y).sum).sum = (L'.map fun y => (L.map fun x => g x y).sum).sum := by
  induction L with
  | nil => simp
  | cons x L ih =>
    rw [List.map_cons, List.sum_cons, ih, ← List.sum_map_add]
    simp

theorem sum_filter_ite {α M : Type} [AddCommMonoid M] (p : α → Bool) (g : α → M) (l : List α) :
    ((l.filter p).map g).sum = (l.map fun x => if p x then g x else 0).sum := by
  induction l with
  | nil => rfl
  | cons x l ih => by_cases h : p x <;> simp [h, ih]

theorem sum_mul_list {R : Type} [NonUnitalNonAssocSemiring R] (l : List R) (c : R) : l.sum * c = (l.map fun x => x * c).sum := by
  induction l with
  | nil => simp
  | cons x l ih => simp [add_mul, ih]

theorem mul_sum_list {R : Type} [NonUnitalNonAssocSemiring R] (l : List R) (c : R) : c * l.sum = (l.map fun x => c * x).sum := by
  induction l with
  | nil => simp
  | cons x l ih => simp [mul_add, ih]

/-- all pairs of `l`, with their positions -/
def allPairs (l : List (Ket ι K)) : List ((Ket ι K × ℕ) × (Ket ι K × ℕ)) :=
  l.zipIdx.flatMap fun x => l.zipIdx.map fun y => (x, y)

theorem sum_zipIdx {α M : Type} [AddCommMonoid M] (l : List α) (g : α → M) (k : ℕ) : ((l.zipIdx k).map fun x => g x.1).sum = (l.map g).sum := by
  induction l generalizing k with
  | nil => rfl
  | cons x l ih => simp [List.zipIdx_cons, ih]

/-- what the kets of the list must satisfy: they are well-formed, not the zero ket, and belong to the space -/
def GoodBasis (d : ι → ℕ) (S : Finset ι) (l : List (Ket ι K)) : Prop := ∀ a ∈ l, a.wf d ∧ a.space = S ∧ a.isZero = false

theorem sum_allPairs {A : Op ι K} {S : Finset ι} {l : List (Ket ι K)} (hA : A.wf d) (hAS : A.space ⊆ S) (hl : GoodBasis d S l) :
    ((allPairs l).map fun p => termVal I S A p.1.1 p.2.1).sum = proj S (l.map (Ket.ev I)) * A.ev I * proj S (l.map (Ket.ev I)) := by
  rw [allPairs, sum_pairs]
  have : ∀ x ∈ l, (l.map fun y => termVal I S A x y).sum = outer S (x.ev I) (x.ev I) * A.ev I * proj S (l.map (Ket.ev I)) := by
    intro x hx
    rw [proj, mul_sum_list, List.map_map, List.map_map]
    congr 1
    refine List.map_congr_left fun y hy => ?_
    exact termVal_eq hA hAS (hl x hx).1 (hl x hx).2.1 (hl y hy).1 (hl y hy).2.1
  have e : (l.zipIdx.map fun x => (l.zipIdx.map fun y => termVal I S A x.1 y.1).sum).sum
      = (l.map fun x => (l.map fun y => termVal I S A x y).sum).sum := by
    rw [← sum_zipIdx l (fun x => (l.map fun y => termVal I S A x y).sum) 0]
    congr 1
    refine List.map_congr_left fun x _ => ?_
    exact sum_zipIdx l (fun y => termVal I S A x.1 y) 0
  rw [e, List.map_congr_left this, mul_assoc (proj _ _)]
  conv_rhs => rw [proj, sum_mul_list, List.map_map, List.map_map]
  congr 1
  refine List.map_congr_left fun x _ => ?_
  simp only [Function.comp, mul_assoc, proj, List.map_map]

theorem termVal_adj {A : Op ι K} {a b : Ket ι K} {S : Finset ι} (hA : A.wf d) (hAS : A.space ⊆ S) (hH : (A.ev I)ᴴ = A.ev I)
    (ha : a.wf d) (has : a.space = S) (hb : b.wf d) (hbs : b.space = S) : (termVal I S A a b)ᴴ = termVal I S A b a := by
  rw [termVal_eq hA hAS ha has hb hbs, termVal_eq hA hAS hb hbs ha has, conjTranspose_mul, conjTranspose_mul, hH, outer_star, outer_star,
    mul_assoc]

theorem conjTranspose_list_sum (l : List (Mat d K)) : l.sumᴴ = (l.map fun x => xᴴ).sum := by
  induction l with
  | nil => simp
  | cons x l ih => simp [conjTranspose_add, ih]

theorem mem_allPairs {l : List (Ket ι K)} {p} (h : p ∈ allPairs l) : p.1.1 ∈ l ∧ p.2.1 ∈ l := by
  simp only [allPairs, List.mem_flatMap, List.mem_map] at h
  obtain ⟨x, hx, y, hy, rfl⟩ := h
  exact ⟨List.fst_mem_of_mem_zipIdx hx, List.fst_mem_of_mem_zipIdx hy⟩

theorem swap_allPairs {M : Type} [AddCommMonoid M] (l : List (Ket ι K)) (g : (Ket ι K × ℕ) × (Ket ι K × ℕ) → M) :
    ((allPairs l).map fun p => g (p.2, p.1)).sum = ((allPairs l).map g).sum := by
  rw [allPairs, sum_pairs, sum_pairs, sum_swap]

theorem mem_wf {ts : List (Bool × Op ι K)} (h : ∀ t ∈ ts, t.2.wf d) {p : Bool × Op ι K → Bool} : ∀ x ∈ (ts.filter p).map Prod.snd, x.wf d := by
  intro x hx
  obtain ⟨t, ht, rfl⟩ := List.mem_map.mp hx
  exact h t (List.mem_of_mem_filter ht)

/-- the terms of lines 117-128: their marks, their values, and that the ones that are dropped do not matter -/
theorem basisTerms_spec (hs : mk.Sound I) (hst : mk.Safe) (ho : SumOk I opSum scExpand) {n : ℕ} {hm : Bool} {A : Op ι K} {l : List (Ket ι K)}
    {ts : List (Bool × Op ι K)} {S : Finset ι} (h : basisTerms mk scExpand n hm A l = .ok ts) (hA : A.wf d) (hAS : A.space ⊆ S)
    (hl : GoodBasis d S l) : (∀ t ∈ ts, t.2.wf d) ∧
      ((diagTerms ts).map (Op.ev I)).sum = (((basisPairs hm l).filter fun p => decide (p.1.2 = p.2.2)).map fun p => termVal I S A p.1.1 p.2.1).sum ∧
      ((offTerms ts).map (Op.ev I)).sum = (((basisPairs hm l).filter fun p => !decide (p.1.2 = p.2.2)).map fun p => termVal I S A p.1.1 p.2.1).sum := by
  obtain ⟨us, hu, h'⟩ := Except.bind_ok h
  clear h
  injection h' with h'; subst h'
  have hmem : ∀ p ∈ basisPairs hm l, p.1.1 ∈ l ∧ p.2.1 ∈ l := fun p hp => mem_allPairs (List.mem_of_mem_filter hp)
  generalize basisPairs hm l = ps at hu hmem
  replace hu := QNET.Indexed.mapM_ok_forall₂ hu
  induction hu with
  | nil => exact ⟨by simp, rfl, rfl⟩
  | @cons p t ps us hp _ ih =>
    obtain ⟨t', ht, hp⟩ := Except.bind_ok hp
    injection hp with hp; subst hp
    obtain ⟨i1, i2, i3⟩ := ih fun q hq => hmem q (List.mem_cons_of_mem _ hq)
    simp only [diagTerms, offTerms, List.filter_filter, List.map_map] at i2 i3 ⊢
    obtain ⟨m1, m2⟩ := hmem p List.mem_cons_self
    obtain ⟨t1, t2⟩ := basisTerm_spec hs hst ho ht hA hAS (hl _ m1).1 (hl _ m1).2.1 (hl _ m1).2.2 (hl _ m2).1 (hl _ m2).2.1 (hl _ m2).2.2
    by_cases hz : t'.isZero
    · have h0 : t'.ev I = 0 := by
        cases t' <;> simp_all [Op.isZero, Op.ev]
      rw [h0] at t2
      refine ⟨fun t ht => i1 t (by simpa [hz] using ht), ?_, ?_⟩
      all_goals
        by_cases hd : p.1.2 = p.2.2 <;> simp [hz, hd, ← t2, i2, i3]
    · refine ⟨fun t ht => ?_, ?_, ?_⟩
      · simp only [hz, List.filter_cons, Bool.not_false, if_true, List.mem_cons] at ht
        rcases ht with rfl | ht
        · exact t1
        · exact i1 t ht
      all_goals
        by_cases hd : p.1.2 = p.2.2 <;> simp [hz, hd, t2, i2, i3]

/-- **C102** `A.expand_in_basis(basis_states)`, whatever the basis states are (kets of one space `S` that contains the space of `A`): the
result denotes `P A P` with `P` the sum of the projectors `|i><i|` -/
theorem C102_projected_partial (hs : mk.Sound I) (hst : mk.Safe) (ho : SumOk I opSum scExpand) {n : ℕ} {A r : Op ι K} {l : List (Ket ι K)}
    {S : Finset ι} (h : expandInBasis mk opSum scExpand n false A l = .ok r) (hA : A.wf d) (hAS : A.space ⊆ S) (hl : GoodBasis d S l) :
    r.wf d ∧ r.ev I = proj S (l.map (Ket.ev I)) * A.ev I * proj S (l.map (Ket.ev I)) := by
  obtain ⟨ts, ht, h⟩ := Except.bind_ok h
  obtain ⟨D, hD, h⟩ := Except.bind_ok h
  obtain ⟨X, hX, h⟩ := Except.bind_ok h
  obtain ⟨t1, t2, t3⟩ := basisTerms_spec hs hst ho ht hA hAS hl
  obtain ⟨D1, D2⟩ := ho.opSum _ _ hD (mem_wf t1)
  obtain ⟨X1, X2⟩ := ho.opSum _ _ hX (mem_wf t1)
  obtain ⟨r1, r2⟩ := ho.opSum _ _ h (by simp [D1, X1])
  refine ⟨r1, ?_⟩
  rw [r2, ← sum_allPairs hA hAS hl]
  simp only [List.map_cons, List.map_nil, List.sum_cons, List.sum_nil, add_zero]
  rw [D2, X2, t2, t3, sum_filter_ite, sum_filter_ite, ← List.sum_map_add]
  have : basisPairs false l = allPairs l := by simp [basisPairs, allPairs]
  rw [this]
  congr 1
  refine List.map_congr_left fun p _ => ?_
  by_cases hd : p.1.2 = p.2.2 <;> simp [hd]

/-- **C102** with `hermitian=True`: the result denotes the same `P A P` if `A` is Hermitian -/
theorem C102_hermitian_partial (hs : mk.Sound I) (hst : mk.Safe) (ho : SumOk I opSum scExpand) {n : ℕ} {A r : Op ι K} {l : List (Ket ι K)}
    {S : Finset ι} (h : expandInBasis mk opSum scExpand n true A l = .ok r) (hA : A.wf d) (hAS : A.space ⊆ S) (hl : GoodBasis d S l)
    (hH : (A.ev I)ᴴ = A.ev I) : r.wf d ∧ r.ev I = proj S (l.map (Ket.ev I)) * A.ev I * proj S (l.map (Ket.ev I)) := by
  obtain ⟨ts, ht, h⟩ := Except.bind_ok h
  obtain ⟨D, hD, h⟩ := Except.bind_ok h
  obtain ⟨t1, t2, t3⟩ := basisTerms_spec hs hst ho ht hA hAS hl
  obtain ⟨D1, D2⟩ := ho.opSum _ _ hD (mem_wf t1)
  have key : ((diagTerms ts).map (Op.ev I)).sum + (((offTerms ts).map (Op.ev I)).sum + ((offTerms ts).map (Op.ev I)).sumᴴ) =
      proj S (l.map (Ket.ev I)) * A.ev I * proj S (l.map (Ket.ev I)) := by
    rw [← sum_allPairs hA hAS hl, t2, t3, conjTranspose_list_sum, List.map_map]
    have e1 : (((basisPairs true l).filter fun p => !decide (p.1.2 = p.2.2)).map fun p => (termVal I S A p.1.1 p.2.1)ᴴ).sum
        = ((allPairs l).map fun p => if p.2.2 < p.1.2 then termVal I S A p.1.1 p.2.1 else 0).sum := by
      rw [← swap_allPairs, basisPairs, List.filter_filter, sum_filter_ite]
      congr 1
      refine List.map_congr_left fun p hp => ?_
      obtain ⟨m1, m2⟩ := mem_allPairs hp
      rw [termVal_adj hA hAS hH (hl _ m1).1 (hl _ m1).2.1 (hl _ m2).1 (hl _ m2).2.1]
      rcases lt_trichotomy p.1.2 p.2.2 with hlt | heq | hgt
      · simp [hlt, hlt.ne, hlt.le]
      · simp [heq]
      · simp [hgt, hgt.ne', not_lt.mpr hgt.le]
    have e2 : (((basisPairs true l).filter fun p => !decide (p.1.2 = p.2.2)).map fun p => termVal I S A p.1.1 p.2.1).sum
        = ((allPairs l).map fun p => if p.1.2 < p.2.2 then termVal I S A p.1.1 p.2.1 else 0).sum := by
      rw [basisPairs, List.filter_filter, sum_filter_ite]
      congr 1
      refine List.map_congr_left fun p _ => ?_
      rcases lt_trichotomy p.1.2 p.2.2 with hlt | heq | hgt
      · simp [hlt, hlt.ne, hlt.le]
      · simp [heq]
      · simp [hgt, hgt.ne', not_lt.mpr hgt.le]
    have e3 : (((basisPairs true l).filter fun p => decide (p.1.2 = p.2.2)).map fun p => termVal I S A p.1.1 p.2.1).sum
        = ((allPairs l).map fun p => if p.1.2 = p.2.2 then termVal I S A p.1.1 p.2.1 else 0).sum := by
      rw [basisPairs, List.filter_filter, sum_filter_ite]
      congr 1
      refine List.map_congr_left fun p _ => ?_
      rcases lt_trichotomy p.1.2 p.2.2 with hlt | heq | hgt
      · simp [hlt.ne]
      · simp [heq]
      · simp [hgt.ne']
    rw [e2, e3]
    refine (congrArg (fun z => _ + (_ + z)) e1).trans ?_
    rw [← List.sum_map_add, ← List.sum_map_add]
    congr 1
    refine List.map_congr_left fun p _ => ?_
    rcases lt_trichotomy p.1.2 p.2.2 with hlt | heq | hgt
    · simp [hlt, hlt.ne, not_lt.mpr hlt.le]
    · simp [heq]
    · simp [hgt, hgt.ne', not_lt.mpr hgt.le]
  rw [if_pos rfl] at h
  split at h
  · rename_i ho'
    injection h with h; subst h
    refine ⟨D1, ?_⟩
    rw [D2, ← key, ho']
    simp
  · obtain ⟨X, hX, h⟩ := Except.bind_ok h
    obtain ⟨X1, X2⟩ := ho.opSum _ _ hX (mem_wf t1)
    have hp : (plusCC X).wf d := by
      rw [plusCC, Op.wf, opsWf_iff]
      simp only [List.mem_cons, List.not_mem_nil, or_false, forall_eq_or_imp, forall_eq]
      exact ⟨X1, by rw [Op.wf]; exact X1⟩
    obtain ⟨r1, r2⟩ := ho.opSum _ _ h (by simp [D1, hp])
    refine ⟨r1, ?_⟩
    rw [r2, ← key, ← D2, ← X2]
    simp only [List.map_cons, List.map_nil, List.sum_cons, List.sum_nil, add_zero, plusCC, Op.ev, opEvL_eq]

/-- **C102** in a complete basis (`Σ_i |i><i| = 1`) `expand_in_basis` is the operator; with `hermitian=True` if the operator is Hermitian -/
theorem C102_complete_partial (hs : mk.Sound I) (hst : mk.Safe) (ho : SumOk I opSum scExpand) {n : ℕ} {hm : Bool} {A r : Op ι K} {l : List (Ket ι K)}
    {S : Finset ι} (h : expandInBasis mk opSum scExpand n hm A l = .ok r) (hA : A.wf d) (hAS : A.space ⊆ S) (hl : GoodBasis d S l)
    (hH : hm = true → (A.ev I)ᴴ = A.ev I) (h1 : proj S (l.map (Ket.ev I)) = 1) : r.wf d ∧ r.ev I = A.ev I := by
  cases hm
  · have := C102_projected_partial hs hst ho h hA hAS hl
    rwa [h1, one_mul, mul_one] at this
  · have := C102_hermitian_partial hs hst ho h hA hAS hl (hH rfl)
    rwa [h1, one_mul, mul_one] at this

/-! #### the basis of a Hilbert space -/

theorem proj_apply (S : Finset ι) (vs : List (Vec d K)) (x y : Cfg d) : proj S vs x y = (vs.map fun v => outer S v v x y).sum := by
  induction vs with
  | nil => rfl
  | cons v vs ih =>
    rw [List.map_cons, List.sum_cons, ← ih]
    rfl

omit [CommRing K] [StarRing K] [DecidableEq K] [Fintype ι] in
theorem sum_range_list {M : Type} [AddCommMonoid M] (f : ℕ → M) (m : ℕ) : ((List.range m).map f).sum = ∑ n ∈ Finset.range m, f n := by
  induction m with
  | zero => rfl
  | succ m ih => rw [List.range_succ, List.map_append, List.sum_append, ih, Finset.sum_range_succ]; simp

/-- the levels of a local space are complete: `Σ_n |n><n| = 1` -/
theorem proj_local (l : ι) : proj {l} ((List.range (d l)).map fun n => (basisVec n l : Vec d K)) = 1 := by
  ext x y
  rw [proj_apply, List.map_map, sum_range_list]
  by_cases hxy : ∀ i ∉ ({l} : Finset ι), x i = y i
  · rw [Finset.sum_eq_single (x l : ℕ)]
    · simp only [Function.comp, outer, of_apply, if_pos hxy, basisVec, if_pos, one_mul]
      by_cases h : y l = x l
      · have : x = y := funext fun i => by
          by_cases hi : i = l
          · rw [hi, h]
          · exact hxy i (by simpa using hi)
        subst this
        simp
      · rw [if_neg fun hc => h (Fin.ext hc), star_zero, one_apply_ne fun hc => h (by rw [hc])]
    · intro n _ hn
      simp [outer, basisVec, hxy, hn.symm]
    · intro hn
      exact absurd (Finset.mem_range.mpr (x l).isLt) hn
  · rw [one_apply_ne fun hc => hxy fun i _ => by rw [hc]]
    refine Finset.sum_eq_zero fun n _ => ?_
    simp only [Function.comp, outer, of_apply, if_neg hxy]

/-- the tuples of basis states of the local spaces -/
def stdChoices (d : ι → ℕ) (ls : List ι) : List (List (Ket ι K)) := choices (ls.map fun l => (List.range (d l)).map fun n => .basis n l)

theorem mem_stdChoices {ls : List ι} {c : List (Ket ι K)} (h : c ∈ stdChoices d ls) : List.Forall₂ (fun x l => ∃ n, n < d l ∧ x = .basis n l) c ls := by
  have := mem_choices h
  rw [List.forall₂_map_right_iff] at this
  refine this.imp fun x l hx => ?_
  obtain ⟨n, hn, rfl⟩ := List.mem_map.mp hx
  exact ⟨n, List.mem_range.mp hn, rfl⟩

theorem prod_dep {ls : List ι} {c : List (Ket ι K)} (h : List.Forall₂ (fun x l => ∃ n, n < d l ∧ x = .basis n l) c ls) :
    DependsOn ls.toFinset ((c.map (Ket.ev I)).prod : Vec d K) := by
  induction h with
  | nil => exact dependsOn_one _
  | @cons x l c ls hx _ ih =>
    obtain ⟨n, _, rfl⟩ := hx
    rw [List.map_cons, List.prod_cons, Ket.ev, List.toFinset_cons]
    exact ((basisVec_dep n l).mono (by simp)).mul (ih.mono (Finset.subset_insert _ _))

/-- the product basis is complete -/
theorem proj_choices {ls : List ι} (hn : ls.Nodup) : proj ls.toFinset ((stdChoices d ls).map fun c => ((c.map (Ket.ev I)).prod : Vec d K)) = 1 := by
  induction ls with
  | nil =>
    ext x y
    rw [proj_apply]
    simp only [stdChoices, List.map_nil, choices, List.map_cons, List.prod_nil, List.sum_cons, List.sum_nil, add_zero, outer, of_apply,
      List.toFinset_nil, Finset.notMem_empty, not_false_eq_true, true_imp_iff, Pi.one_apply, star_one, mul_one]
    by_cases h : x = y
    · subst h; simp
    · rw [if_neg fun hc => h (funext hc), one_apply_ne h]
  | cons l ls ih =>
    obtain ⟨hl, hn⟩ := List.nodup_cons.mp hn
    have hd : Disjoint ({l} : Finset ι) ls.toFinset := by simpa using hl
    have e : proj (l :: ls).toFinset ((stdChoices d (l :: ls)).map fun c => ((c.map (Ket.ev I)).prod : Vec d K)) =
        proj {l} ((List.range (d l)).map fun n => (basisVec n l : Vec d K)) *
          proj ls.toFinset ((stdChoices d ls).map fun c => ((c.map (Ket.ev I)).prod : Vec d K)) := by
      have h1 : stdChoices (K := K) d (l :: ls) =
          ((List.range (d l)).map fun n => Ket.basis n l).flatMap fun x => (stdChoices d ls).map fun c => x :: c := rfl
      rw [h1, proj, proj, sum_mul_list, List.map_map, List.map_map, List.map_map]
      generalize List.range (d l) = R
      induction R with
      | nil => rfl
      | cons n R ihR =>
        rw [List.map_cons, List.flatMap_cons, List.map_append, List.sum_append, ihR, List.map_cons, List.sum_cons]
        congr 1
        rw [List.map_map, Function.comp, Function.comp, proj, mul_sum_list, List.map_map, List.map_map]
        congr 1
        refine List.map_congr_left fun c hc => ?_
        have hp := prod_dep (I := I) (mem_stdChoices hc)
        simp only [Function.comp, List.map_cons, List.prod_cons, Ket.ev, List.toFinset_cons]
        rw [Finset.insert_eq, outer_tensor hd (basisVec_dep n l) (basisVec_dep n l) hp hp]
    rw [e, proj_local, ih hn, one_mul]

theorem localBasis_mapM {dim : ι → Option ℕ} {ls : List ι} {bs : List (List (Ket ι K))} (hdim : ∀ l m, dim l = some m → m = d l)
    (h : ls.mapM (localBasis dim) = .ok bs) : bs = ls.map fun l => (List.range (d l)).map fun n => .basis n l := by
  replace h := QNET.Indexed.mapM_ok_forall₂ h
  induction h with
  | nil => rfl
  | @cons l b ls bs hb _ ih =>
    rw [localBasis] at hb
    split at hb
    · exact nomatch hb
    · rename_i m hm
      injection hb with hb
      rw [hdim l m hm] at hb
      rw [← hb, ih, List.map_cons]

theorem tensor_good {ls : List ι} {c : List (Ket ι K)} (hn : ls.Nodup) (h : List.Forall₂ (fun x l => ∃ n, n < d l ∧ x = .basis n l) c ls) :
    (Ket.tensor c).wf d ∧ (Ket.tensor c).space = ls.toFinset ∧ (Ket.tensor c).isZero = false := by
  have key : ∀ spc : Finset ι, (∀ l ∈ ls, l ∉ spc) → ketsWf d c ∧ c.any Ket.isZero = false ∧ disjointFrom spc c = true ∧ spaceL c = ls.toFinset := by
    induction h with
    | nil => intro spc _; exact ⟨trivial, rfl, rfl, rfl⟩
    | @cons x l c ls hx _ ih =>
      intro spc hspc
      obtain ⟨n, hnl, rfl⟩ := hx
      obtain ⟨hl, hn⟩ := List.nodup_cons.mp hn
      obtain ⟨i1, i2, i3, i4⟩ := ih hn (spc ∪ {l}) fun l' hl' => by
        rw [Finset.mem_union, Finset.mem_singleton]
        rintro (hc | rfl)
        · exact hspc l' (List.mem_cons_of_mem _ hl') hc
        · exact hl hl'
      refine ⟨⟨hnl, i1⟩, by simp [i2, Ket.isZero], ?_, ?_⟩
      · rw [disjointFrom, Ket.space, i3, Bool.and_true, decide_eq_true_iff]
        ext j
        simp only [Finset.mem_inter, Finset.mem_singleton, Finset.notMem_empty, iff_false, not_and]
        rintro rfl
        exact hspc j List.mem_cons_self
      · rw [spaceL, i4, Ket.space, List.toFinset_cons, Finset.insert_eq]
  obtain ⟨k1, k2, k3, k4⟩ := key ∅ (by simp)
  exact ⟨by rw [Ket.wf]; exact ⟨k1, k2, k3⟩, by rw [Ket.space, k4], rfl⟩

/-- the basis of the Hilbert space of the local spaces `ls`: its kets are good, and it is complete -/
theorem basisStates_spec {dim : ι → Option ℕ} {ls : List ι} {l : List (Ket ι K)} (hdim : ∀ l m, dim l = some m → m = d l) (hn : ls.Nodup)
    (h : basisStates dim ls = .ok l) : GoodBasis d ls.toFinset l ∧ proj ls.toFinset (l.map (Ket.ev I)) = 1 := by
  have hc := proj_choices (I := I) hn
  unfold basisStates at h
  split at h
  · injection h with h; subst h
    refine ⟨?_, ?_⟩
    · intro a ha
      rw [List.mem_singleton.mp ha]
      exact ⟨by rw [Ket.wf]; trivial, rfl, rfl⟩
    · rw [← hc]
      simp [stdChoices, choices, Ket.ev]
  · rename_i i
    have h1 : [i].mapM (localBasis (K := K) dim) = .ok [l] := by
      rw [List.mapM_cons, h]; rfl
    have h2 := localBasis_mapM hdim h1
    simp only [List.map_cons, List.map_nil, List.cons.injEq, and_true] at h2
    subst h2
    refine ⟨?_, ?_⟩
    · intro a ha
      obtain ⟨n, hn', rfl⟩ := List.mem_map.mp ha
      exact ⟨by rw [Ket.wf]; exact List.mem_range.mp hn', by simp [Ket.space], rfl⟩
    · have := proj_local (K := K) (d := d) i
      rw [List.map_map]
      simpa [Function.comp_def, Ket.ev] using this
  · obtain ⟨bs, hbs, h⟩ := Except.bind_ok h
    injection h with h; subst h
    rw [localBasis_mapM hdim hbs]
    refine ⟨?_, ?_⟩
    · intro a ha
      obtain ⟨c, hc', rfl⟩ := List.mem_map.mp ha
      exact tensor_good hn (mem_stdChoices hc')
    · rw [List.map_map]
      refine Eq.trans ?_ hc
      rw [stdChoices]
      congr 1
      refine List.map_congr_left fun c _ => ?_
      rw [Function.comp, Ket.ev, evL_eq]

/-- `A.expand_in_basis(hermitian=…)` without a list of states, line 116: those of the space of `A`, whose local factors are `ls` -/
def expandInSpace [Neg K] (mk : Mk ι K) (opSum : List (Op ι K) → Res (Op ι K)) (scExpand : Sc ι K → Res (Sc ι K)) (dim : ι → Option ℕ) (n : ℕ)
    (hermitian : Bool) (A : Op ι K) (ls : List ι) : Res (Op ι K) :=
  basisStates dim ls >>= expandInBasis mk opSum scExpand n hermitian A

/-- **C102** without a list of states the expansion is the operator (with `hermitian=True`, if the operator is Hermitian) -/
theorem C102_default_partial (hs : mk.Sound I) (hst : mk.Safe) (ho : SumOk I opSum scExpand) {dim : ι → Option ℕ} {n : ℕ} {hm : Bool} {A r : Op ι K}
    {ls : List ι} (hdim : ∀ l m, dim l = some m → m = d l) (hn : ls.Nodup) (hls : ls.toFinset = A.space)
    (h : expandInSpace mk opSum scExpand dim n hm A ls = .ok r) (hA : A.wf d) (hH : hm = true → (A.ev I)ᴴ = A.ev I) :
    r.wf d ∧ r.ev I = A.ev I := by
  obtain ⟨l, hl, h⟩ := Except.bind_ok h
  obtain ⟨g1, g2⟩ := basisStates_spec (I := I) hdim hn hl
  exact C102_complete_partial hs hst ho h hA (by rw [hls]) g1 hH g2

omit [Fintype ι] [DecidableEq ι] [CommRing K] [StarRing K] [DecidableEq K] in
theorem mapM_localBasis_none {dim : ι → Option ℕ} {ls : List ι} {l : ι} (hl : l ∈ ls) (h0 : dim l = none) :
    ls.mapM (localBasis (K := K) dim) = .error .basisNotSet := by
  induction ls with
  | nil => exact nomatch hl
  | cons i ls ih =>
    rw [List.mapM_cons]
    cases hi : dim i with
    | none => simp only [localBasis, hi]; rfl
    | some m =>
      rcases List.mem_cons.mp hl with rfl | hl
      · rw [h0] at hi; exact nomatch hi
      · simp only [localBasis, hi]
        show (ls.mapM (localBasis dim) >>= fun r => _) = _
        rw [ih hl]; rfl

/-- **C102** without a list of states `BasisNotSetError` is raised if one of the local factors of the space has no basis -/
theorem C102_no_basis {dim : ι → Option ℕ} {n : ℕ} {hm : Bool} {A : Op ι K} {ls : List ι} {l : ι} (hl : l ∈ ls) (h0 : dim l = none) :
    expandInSpace mk opSum scExpand dim n hm A ls = .error .basisNotSet := by
  have : basisStates (K := K) dim ls = .error .basisNotSet := by
    unfold basisStates
    split
    · exact nomatch hl
    · rename_i i
      rw [List.mem_singleton.mp hl] at h0
      simp only [localBasis, h0]
    · rw [mapM_localBasis_none hl h0]; rfl
  rw [expandInSpace, this]; rfl

end thm

/-! ### examples -/

/-- sums of operators, numbers -/
theorem exSumOk : SumOk exI (fun l => .ok (.plus l)) (fun c => .ok c) where
  opSum l r h hl := by
    injection h with h; subst h
    exact ⟨by rw [Op.wf, opsWf_iff]; exact hl, by rw [Op.ev, opEvL_eq]⟩
  scExpand c r h hc := by injection h with h; subst h; exact ⟨hc, rfl⟩

/-- the rest of QNET, with the adjoint of a transition operator -/
def exMk2 : Mk (Fin 3) ℤ := { exMk with
  opAdj := fun A => match A with
    | .sigma j k l => .ok (.sigma k j l)
    | A => .ok (.adj A) }

theorem exMk2_sound : exMk2.Sound exI := { exMk_sound with
  opAdj := by
    intro A B h hA
    by_cases hA' : ∃ j k l, A = .sigma j k l
    · obtain ⟨j, k, l, rfl⟩ := hA'
      injection h with h; subst h
      rw [Op.wf] at hA
      refine ⟨by rw [Op.wf]; exact hA.symm, ?_⟩
      rw [Op.ev, Op.ev]
      ext x y
      simp only [embed, of_apply, conjTranspose_apply]
      have : (∀ i, i ≠ l → x i = y i) ↔ ∀ i, i ≠ l → y i = x i := ⟨fun h i hi => (h i hi).symm, fun h i hi => (h i hi).symm⟩
      by_cases h : ∀ i, i ≠ l → x i = y i
      · rw [if_pos h, if_pos (this.mp h)]
        by_cases h1 : (x l : ℕ) = k <;> by_cases h2 : (y l : ℕ) = j <;> simp [h1, h2]
      · rw [if_neg h, if_neg fun hc => h (this.mpr hc), star_zero]
    · exact exMk_sound.opAdj A B (by
        have e : exMk2.opAdj A = .ok (.adj A) := by
          cases A <;> first | rfl | exact absurd ⟨_, _, _, rfl⟩ hA'
        rw [← h, e]; rfl) hA }

/-- `expand_in_basis` in the examples, for spaces with two levels -/
def exExpand (hermitian : Bool) (A : Op (Fin 3) ℤ) (ls : List (Fin 3)) : Res (Op (Fin 3) ℤ) :=
  expandInSpace exMk2.checked (fun l => .ok (.plus l)) (fun c => .ok c) (fun _ => some 2) 12 hermitian A ls

example : exMk2.checked.Sound exI ∧ exMk2.checked.Safe ∧ ∀ l m, (fun _ : Fin 3 => some 2) l = some m → m = exD l :=
  ⟨exMk2_sound.checked, .inl rfl, by intro l m h; injection h with h; subst h; rfl⟩

/-- `σ_01` in the basis of its space, and `σ_11` with `hermitian=True` -/
example : exExpand false (.sigma 0 1 0) [0] = .ok (.plus [.plus [.scal (.val 0) (.ketBra (.basis 0 0) (.basis 0 0)), .scal (.val 0) (.ketBra (.basis 1 0) (.basis 1 0))],
      .plus [.scal (.val 1) (.ketBra (.basis 0 0) (.basis 1 0)), .scal (.val 0) (.ketBra (.basis 1 0) (.basis 0 0))]]) ∧
    exExpand true (.sigma 1 1 0) [0] = .ok (.plus [.plus [.scal (.val 0) (.ketBra (.basis 0 0) (.basis 0 0)), .scal (.val 1) (.ketBra (.basis 1 0) (.basis 1 0))],
      .plus [.plus [.scal (.val 0) (.ketBra (.basis 0 0) (.basis 1 0))], .adj (.plus [.scal (.val 0) (.ketBra (.basis 0 0) (.basis 1 0))])]]) :=
  ⟨by kernel_rfl, by kernel_rfl⟩

example : (exExpand false (.sigma 0 1 0) [0, 1]).toOption.isSome = true ∧
    basisStates (K := ℤ) (fun _ : Fin 3 => some 2) [0, 1] = .ok [.tensor [.basis 0 0, .basis 0 1], .tensor [.basis 0 0, .basis 1 1],
      .tensor [.basis 1 0, .basis 0 1], .tensor [.basis 1 0, .basis 1 1]] := ⟨by kernel_rfl, by kernel_rfl⟩

/-- `hermitian=True` for an operator that is not Hermitian gives another one: `σ_01` becomes `|0><1| + |1><0|` -/
theorem C102_not_hermitian : ∃ r : Op (Fin 3) ℤ, exExpand true (.sigma 0 1 0) [0] = .ok r ∧ (Op.sigma 0 1 0 : Op (Fin 3) ℤ).wf exD ∧
    r.ev exI ≠ (Op.sigma 0 1 0).ev exI := by
  refine ⟨.plus [.plus [.scal (.val 0) (.ketBra (.basis 0 0) (.basis 0 0)), .scal (.val 0) (.ketBra (.basis 1 0) (.basis 1 0))],
    .plus [.plus [.scal (.val 1) (.ketBra (.basis 0 0) (.basis 1 0))], .adj (.plus [.scal (.val 1) (.ketBra (.basis 0 0) (.basis 1 0))])]],
    by kernel_rfl, by rw [Op.wf]; exact ⟨by decide, by decide⟩, fun h => ?_⟩
  have := congrFun (congrFun h (fun i => if i = 0 then 1 else 0)) (fun _ => 0)
  revert this
  simp [Op.ev, opEvL, Sc.ev, Ket.ev, outer, basisVec, embed, Ket.space]

end QNET.State
