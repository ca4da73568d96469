import Verif.State.Example

/-!
# C101: `expand()` of kets, bras, inner and outer products
-/

namespace QNET.State

open QNET.Perm (Res Err)
open QNET.Trace (Cfg Mat ActsOn)
open QNET.Indexed (Except.bind_ok Except.map_ok mapM_ok_cons)
open Matrix

/-! ### model -/

/-- What the other parts of the code contribute: `KetPlus.create` (collects equal kets, C29), sums of scalars and of operators, the summands of
`c.expand()` for a scalar (C100), and `A.expand()` for an operator (C30). -/
structure ExpandCtx (ι K : Type) where
  plus : List (Ket ι K) → Res (Ket ι K)
  scSum : List (Sc ι K) → Res (Sc ι K)
  opSum : List (Op ι K) → Res (Op ι K)
  scExpand : Sc ι K → Res (List (Sc ι K))
  opExpand : Op ι K → Res (Op ι K)

variable {ι K : Type}

/-- `x.operands if isinstance(x, KetPlus) else (x,)` -/
def summands : Ket ι K → List (Ket ι K)
  | .plus l => l
  | x => [x]

/-- `x.operands if isinstance(x, OperatorPlus) else (x,)` -/
def opSummands : Op ι K → List (Op ι K)
  | .plus l => l
  | x => [x]

/-- `cartesian_product(*lists)` -/
def choices : List (List (Ket ι K)) → List (List (Ket ι K))
  | [] => [[]]
  | l :: ls => l.flatMap (fun x => (choices ls).map (fun c => x :: c))

variable [Fintype ι] [DecidableEq ι] [DecidableEq K] [One K] [Zero K] (mk : Mk ι K) (Γ : ExpandCtx ι K)

/-- `summand = combo[0]`, then `summand *= c` for the others, `_expand_product`, abstract_quantum_algebra.py lines 1114-1117 -/
def mulAll (n : ℕ) : List (Ket ι K) → Res (Ket ι K)
  | [] => .error .indexError
  | x :: l => l.foldlM (fun a b => tensorCreate mk n [a, b]) x

/-- `ret = summands[0]`, then `ret += summand`, lines 1118-1120 -/
def addAll : List (Ket ι K) → Res (Ket ι K)
  | [] => .error .indexError
  | x :: l => l.foldlM (fun a b => Γ.plus [a, b]) x

/-- the end of `_expand_product`, lines 1121-1124 -/
def again (rec' : Ket ι K → Res (Ket ι K)) (r : Ket ι K) : Res (Ket ι K) :=
  match r with
  | .plus l => rec' (.plus l)
  | r => .ok r

/-- `OperatorTimesKet._expand` for the expanded operands, state_algebra.py lines 508-517; `c` is the operator before expansion -/
def expandOpKet (n : ℕ) (c ct : Op ι K) (et : Ket ι K) : Res (Ket ι K) :=
  match et, ct with
  | .plus ts, .plus cs => (ts.flatMap (fun t => cs.map (fun o => (o, t)))).mapM (fun p => opKet mk n p.1 p.2) >>= fun l => l.foldlM (fun a b => Γ.plus [a, b]) .zero
  | .plus ts, _ => ts.mapM (opKet mk n c) >>= fun l => l.foldlM (fun a b => Γ.plus [a, b]) .zero
  | et, .plus cs => cs.mapM (fun o => opKet mk n o et) >>= fun l => l.foldlM (fun a b => Γ.plus [a, b]) .zero
  | et, ct => opKet mk n ct et

/-- `expand()` of a ket: `QuantumPlus._expand` (abstract_quantum_algebra.py lines 488-490), `_expand_product` (lines 1104-1124) for `TensorKet` and
`ScalarTimesKet` (lines 532-533, 621-622), `OperatorTimesKet._expand` (state_algebra.py lines 504-517); others unchanged (line 117). The first argument
is the recursion limit. -/
def expandKet : ℕ → Ket ι K → Res (Ket ι K)
  | 0, _ => .error .recursion
  | n + 1, .plus l => l.mapM (expandKet n) >>= Γ.plus
  | n + 1, .tensor l => l.mapM (expandKet n) >>= fun es => (choices (es.map summands)).mapM (mulAll mk n) >>= fun ss =>
    addAll Γ ss >>= again (expandKet n)
  | n + 1, .scal c t => Γ.scExpand c >>= fun cs => expandKet n t >>= fun et =>
    (cs.flatMap (fun c => (summands et).map (fun t => (c, t)))).mapM (fun p => scalKet mk n p.1 p.2) >>= fun ss => addAll Γ ss >>= again (expandKet n)
  | n + 1, .opKet c t => Γ.opExpand c >>= fun ct => expandKet n t >>= expandOpKet mk Γ n c ct
  | _ + 1, t => .ok t

/-- `Bra(t).expand()`: `QuantumAdjoint._expand`, abstract_quantum_algebra.py lines 463-468. The summands of a sum have no method `adjoin`. The bra is
represented by its ket. -/
def expandBra (n : ℕ) (t : Ket ι K) : Res (Ket ι K) := expandKet mk Γ n t >>= fun e =>
  match e with
  | .plus _ => .error .attributeError
  | e => .ok e

/-- `BraKet._expand`, state_algebra.py lines 634-640 -/
def expandBraKet (n : ℕ) (b k : Ket ι K) : Res (Sc ι K) := expandKet mk Γ n b >>= fun be => expandKet mk Γ n k >>= fun ke =>
  ((summands be).flatMap (fun x => (summands ke).map (fun y => (x, y)))).mapM (fun p => braKet mk n p.1 p.2) >>= Γ.scSum

/-- `KetBra._expand`, state_algebra.py lines 694-702; `k` is the ket, `b` that of the bra -/
def expandKetBra [Neg K] (n : ℕ) (k b : Ket ι K) : Res (Op ι K) := expandKet mk Γ n b >>= fun be => expandKet mk Γ n k >>= fun ke =>
  ((summands ke).flatMap (fun x => (summands be).map (fun y => (x, y)))).mapM (fun p => ketBra mk n p.1 p.2) >>= Γ.opSum

/-! ### specification -/

section thm

variable {ι K : Type} [Fintype ι] [DecidableEq ι] [CommRing K] [StarRing K] [DecidableEq K] {d : ι → ℕ} {I : Interp ι d K} {mk : Mk ι K}
  {Γ : ExpandCtx ι K}

/-- `r` is a well-formed ket for the state `v` of the space `S` (or `ZeroKet`) -/
structure Exp (I : Interp ι d K) (S : Finset ι) (r : Ket ι K) (v : Vec d K) : Prop where
  wf : r.wf d
  ev : r.ev I = v
  sp : r = .zero ∨ (r.isZero = false ∧ r.space = S)

/-- What is assumed of the other parts of the code: a sum of kets of one space is that sum, of that space or `ZeroKet`; sums of scalars and
operators are that; expanding a scalar gives summands of it, expanding an operator does not change its value. -/
structure ExpandCtx.Sound (Γ : ExpandCtx ι K) (I : Interp ι d K) : Prop where
  plus : ∀ l r S, Γ.plus l = .ok r → (∀ x ∈ l, x.wf d ∧ (x = .zero ∨ (x.isZero = false ∧ x.space = S))) → Exp I S r (l.map (Ket.ev I)).sum
  scSum : ∀ l r, Γ.scSum l = .ok r → (∀ x ∈ l, x.wf d) → r.wf d ∧ r.ev I = (l.map (Sc.ev I)).sum
  opSum : ∀ l r, Γ.opSum l = .ok r → (∀ x ∈ l, x.wf d) → r.wf d ∧ r.ev I = (l.map (Op.ev I)).sum
  scExpand : ∀ c l, Γ.scExpand c = .ok l → c.wf d → (∀ x ∈ l, x.wf d) ∧ (l.map (Sc.ev I)).sum = c.ev I
  opExpand : ∀ A B, Γ.opExpand A = .ok B → A.wf d → B.wf d ∧ B.ev I = A.ev I

/-! ### proofs -/

/-- well-formed, and zero or of the space `S` -/
def OkOn (d : ι → ℕ) (S : Finset ι) (x : Ket ι K) : Prop := x.wf d ∧ (x = .zero ∨ (x.isZero = false ∧ x.space = S))

theorem Exp.okOn {S : Finset ι} {r : Ket ι K} {v : Vec d K} (h : Exp I S r v) : OkOn d S r := ⟨h.wf, h.sp⟩

theorem summands_ok {S : Finset ι} {r : Ket ι K} {v : Vec d K} (h : Exp I S r v) :
    (∀ x ∈ summands r, OkOn d S x) ∧ ((summands r).map (Ket.ev I)).sum = v := by
  have one : ∀ x : Ket ι K, Exp I S x v → (∀ y ∈ [x], OkOn d S y) ∧ (([x]).map (Ket.ev I)).sum = v := by
    intro x h
    refine ⟨fun y hy => ?_, by simp [h.ev]⟩
    rw [List.mem_singleton] at hy
    exact hy ▸ h.okOn
  cases r with
  | plus l =>
    obtain ⟨h1, h2, h3⟩ := h
    rw [Ket.wf, ketsWf_iff] at h1
    rw [Ket.ev, evL_eq] at h2
    rcases h3 with h3 | h3
    · cases h3
    rw [Ket.space] at h3
    refine ⟨fun x hx => ⟨h1.1 x hx, .inr ?_⟩, h2⟩
    have := List.all_eq_true.mp h1.2 x hx
    simp only [Bool.and_eq_true, Bool.not_eq_true', decide_eq_true_eq] at this
    exact ⟨this.1, this.2.trans h3.2⟩
  | _ => exact one _ h

theorem addAll_spec (hg : Γ.Sound I) {S : Finset ι} {l : List (Ket ι K)} {r : Ket ι K} (h : addAll Γ l = .ok r) (hl : ∀ x ∈ l, OkOn d S x) :
    Exp I S r (l.map (Ket.ev I)).sum := by
  cases l with
  | nil => cases h
  | cons a l =>
    simp only [addAll] at h
    have ha := hl a (by simp)
    have hl : ∀ x ∈ l, OkOn d S x := fun x hx => hl x (List.mem_cons_of_mem _ hx)
    clear * - hg h ha hl
    have key : ∀ (l : List (Ket ι K)) (a : Ket ι K) (v : Vec d K), Exp I S a v → (∀ x ∈ l, OkOn d S x) →
        l.foldlM (fun a b => Γ.plus [a, b]) a = .ok r → Exp I S r (v + (l.map (Ket.ev I)).sum) := by
      intro l
      induction l with
      | nil =>
        intro a v ha _ h
        cases h
        simpa using ha
      | cons b l ih =>
        intro a v ha hl h
        rw [List.foldlM_cons] at h
        obtain ⟨c, hc, h⟩ := Except.bind_ok h
        have := ih c (a.ev I + b.ev I) (by
          have := hg.plus _ _ S hc (by
            intro x hx
            simp only [List.mem_cons, List.not_mem_nil, or_false] at hx
            rcases hx with rfl | rfl
            · exact ha.okOn
            · exact hl _ (by simp))
          simpa using this) (fun x hx => hl x (List.mem_cons_of_mem _ hx)) h
        rw [ha.ev] at this
        simpa [add_assoc] using this
    simpa using key l a (a.ev I) ⟨ha.1, rfl, ha.2⟩ hl h

/-- the sum started from `ZeroKet` -/
theorem foldPlus_spec (hg : Γ.Sound I) {S : Finset ι} {l : List (Ket ι K)} {r : Ket ι K}
    (h : l.foldlM (fun a b => Γ.plus [a, b]) .zero = .ok r) (hl : ∀ x ∈ l, OkOn d S x) : Exp I S r (l.map (Ket.ev I)).sum := by
  have h0 : (Ket.zero : Ket ι K).wf d := by rw [Ket.wf]; trivial
  have := addAll_spec hg (S := S) (l := .zero :: l) (r := r) h (by
    intro x hx
    rcases List.mem_cons.mp hx with rfl | hx
    · exact ⟨h0, .inl rfl⟩
    · exact hl x hx)
  rw [List.map_cons, List.sum_cons, Ket.ev, zero_add] at this
  exact this

theorem mulAll_spec (hs : mk.Sound I) {n : ℕ} {l : List (Ket ι K)} {r : Ket ι K} (h : mulAll mk n l = .ok r) (hl : ∀ x ∈ l, x.wf d) :
    r.wf d ∧ r.ev I = (l.map (Ket.ev I)).prod ∧
      (r = .zero ∨ (.zero ∉ l ∧ r.isZero = false ∧ r.space.val = (l.map (fun x => x.space.val)).sum)) := by
  cases l with
  | nil => cases h
  | cons a l =>
    simp only [mulAll] at h
    have key : ∀ (l : List (Ket ι K)) (a : Ket ι K), a.wf d → (∀ x ∈ l, x.wf d) →
        l.foldlM (fun a b => tensorCreate mk n [a, b]) a = .ok r → r.wf d ∧ r.ev I = a.ev I * (l.map (Ket.ev I)).prod ∧
          (r = .zero ∨ (.zero ∉ a :: l ∧ r.isZero = false ∧ r.space.val = a.space.val + (l.map (fun x => x.space.val)).sum)) := by
      clear h hl
      intro l
      induction l with
      | nil =>
        intro a ha _ h
        have h : a = r := by injection h
        rw [← h]
        clear h
        refine ⟨ha, by simp, ?_⟩
        cases hz : a.isZero
        · refine .inr ⟨?_, rfl, by simp⟩
          intro hm
          rw [List.mem_singleton] at hm
          rw [← hm] at hz
          cases hz
        · exact .inl (isZero_iff.mp hz)
      | cons b l ih =>
        intro a ha hl h
        rw [List.foldlM_cons] at h
        obtain ⟨c, hc, h⟩ := Except.bind_ok h
        obtain ⟨c1, c2, c3⟩ := tensorCreate_spec hs hc (by simp [ha, hl b (by simp)])
        obtain ⟨r1, r2, r3⟩ := ih c c1 (fun x hx => hl x (List.mem_cons_of_mem _ hx)) h
        refine ⟨r1, by rw [r2, c2]; simp [mul_assoc], ?_⟩
        rcases r3 with r3 | ⟨r3, r4, r5⟩
        · exact .inl r3
        rcases c3 with c3 | ⟨c3, c4, c5⟩
        · exact absurd (by rw [c3.2]; simp) r3
        refine .inr ⟨?_, r4, by rw [r5, c5]; simp [add_assoc]⟩
        simp only [List.mem_cons, List.not_mem_nil, or_false, not_or] at c3 r3 ⊢
        exact ⟨c3.1, c3.2, r3.2⟩
    obtain ⟨r1, r2, r3⟩ := key l a (hl a (by simp)) (fun x hx => hl x (List.mem_cons_of_mem _ hx)) h
    exact ⟨r1, by simpa using r2, by simpa using r3⟩

theorem choices_sum (l : List (List (Ket ι K))) :
    ((choices l).map (fun c => (c.map (Ket.ev I)).prod)).sum = (l.map (fun x => (x.map (Ket.ev I)).sum)).prod := by
  induction l with
  | nil => simp [choices]
  | cons a l ih =>
    rw [choices, List.map_cons, List.prod_cons, ← ih]
    generalize choices l = cs
    induction a with
    | nil => simp
    | cons x a ih' =>
      rw [List.flatMap_cons, List.map_append, List.sum_append, ih', List.map_cons, List.sum_cons, add_mul]
      congr 1
      rw [List.map_map]
      clear * -
      induction cs with
      | nil => simp
      | cons c cs ihc => rw [List.map_cons, List.sum_cons, ihc, List.map_cons, List.sum_cons, mul_add]; rfl

theorem mem_choices {l : List (List (Ket ι K))} {c : List (Ket ι K)} (h : c ∈ choices l) : List.Forall₂ (fun x a => x ∈ a) c l := by
  induction l generalizing c with
  | nil =>
    simp only [choices, List.mem_singleton] at h
    subst h; exact .nil
  | cons a l ih =>
    simp only [choices, List.mem_flatMap, List.mem_map] at h
    obtain ⟨x, hx, c', hc', rfl⟩ := h
    exact .cons hx (ih hc')

theorem forall₂_sum {α : Type} {f : α → Res (Ket ι K)} {v : α → Vec d K} {l : List α} {r : List (Ket ι K)} {S : Finset ι}
    (h : l.mapM f = .ok r) (hf : ∀ a ∈ l, ∀ x, f a = .ok x → Exp I S x (v a)) : (∀ x ∈ r, OkOn d S x) ∧ (r.map (Ket.ev I)).sum = (l.map v).sum := by
  replace h := QNET.Indexed.mapM_ok_forall₂ h
  induction h with
  | nil => simp
  | cons h1 h2 ih =>
    have e := hf _ (by simp) _ h1
    obtain ⟨i1, i2⟩ := ih (fun a ha => hf a (List.mem_cons_of_mem _ ha))
    refine ⟨fun x hx => ?_, by simp [i2, e.ev]⟩
    rcases List.mem_cons.mp hx with rfl | hx
    · exact e.okOn
    · exact i1 x hx

theorem scalKet_zero {n : ℕ} {u : Sc ι K} {r : Ket ι K} (h : scalKet mk n u .zero = .ok r) : r = .zero := by
  cases n with
  | zero => cases h
  | succ n =>
    rw [scalKet, scalRest] at h
    split at h
    · injection h with h; exact h.symm
    · split at h <;> (injection h with h; exact h.symm)

/-- a scalar multiple of a ket of the space `S` -/
theorem scalKet_exp (hs : mk.Sound I) {n : ℕ} {u : Sc ι K} {t r : Ket ι K} {S : Finset ι} (h : scalKet mk n u t = .ok r) (hu : u.wf d)
    (ht : OkOn d S t) : Exp I S r (u.ev I • t.ev I) := by
  obtain ⟨h1, h2, h3, _⟩ := scalKet_spec hs n u t r h hu ht.1
  refine ⟨h1, h2, ?_⟩
  cases hz : r.isZero
  · refine .inr ⟨rfl, ?_⟩
    rcases h3 with h3 | h3
    · rw [h3] at hz; cases hz
    rcases ht.2 with h0 | h0
    · rw [h0] at h3; cases h3.1
    · exact h3.2.trans h0.2
  · exact .inl (isZero_iff.mp hz)

/-- an operator applied to a ket of the space `S` -/
theorem opKet_exp (hs : mk.Sound I) (hst : mk.Safe) {n : ℕ} {A : Op ι K} {t r : Ket ι K} {S : Finset ι} (h : opKet mk n A t = .ok r) (hA : A.wf d)
    (ht : OkOn d S t) : Exp I S r (A.ev I *ᵥ t.ev I) := by
  obtain ⟨h1, h2, h3⟩ := opKet_spec hs hst n A t r h hA ht.1
  refine ⟨h1, h2, ?_⟩
  cases hz : r.isZero
  · refine .inr ⟨rfl, ?_⟩
    rcases h3 with h3 | h3
    · rw [h3] at hz; cases hz
    rcases ht.2 with h0 | h0
    · rw [h0] at h3; cases h3.1
    · exact h3.2.trans h0.2
  · exact .inl (isZero_iff.mp hz)

theorem mulVec_list_sum (M : Mat d K) (l : List (Vec d K)) : M *ᵥ l.sum = (l.map (M *ᵥ ·)).sum := by
  induction l with
  | nil => simp
  | cons a l ih => rw [List.sum_cons, mulVec_add, ih]; simp

theorem list_sum_mulVec (l : List (Mat d K)) (v : Vec d K) : l.sum *ᵥ v = (l.map (· *ᵥ v)).sum := by
  induction l with
  | nil => simp
  | cons a l ih => rw [List.sum_cons, add_mulVec, ih]; simp

theorem expandOpKet_spec (hs : mk.Sound I) (hst : mk.Safe) (hg : Γ.Sound I) {n : ℕ} {c ct : Op ι K} {et r : Ket ι K} {S : Finset ι} {v : Vec d K}
    (h : expandOpKet mk Γ n c ct et = .ok r) (hc : c.wf d) (hct : ct.wf d) (he : ct.ev I = c.ev I) (ht : Exp I S et v) :
    Exp I S r (c.ev I *ᵥ v) := by
  unfold expandOpKet at h
  split at h
  · rename_i ts cs
    obtain ⟨l, hl, h⟩ := Except.bind_ok h
    have hts := summands_ok ht
    simp only [summands] at hts
    rw [Op.wf, opsWf_iff] at hct
    rw [Op.ev, opEvL_eq] at he
    obtain ⟨h1, h2⟩ := forall₂_sum (I := I) (S := S) (v := fun p : Op ι K × Ket ι K => p.1.ev I *ᵥ p.2.ev I) hl (by
      intro p hp x hx
      simp only [List.mem_flatMap, List.mem_map] at hp
      obtain ⟨t, ht, o, ho, rfl⟩ := hp
      exact opKet_exp hs hst hx (hct o ho) (hts.1 t ht))
    have := foldPlus_spec hg h h1
    rw [h2] at this
    convert this using 1
    rw [← hts.2, ← he]
    clear * -
    induction ts with
    | nil => simp
    | cons t ts ih =>
      rw [List.map_cons, List.sum_cons, mulVec_add, ih, List.flatMap_cons, List.map_append, List.sum_append]
      congr 1
      rw [list_sum_mulVec, List.map_map, List.map_map]
      rfl
  · rename_i ts _
    obtain ⟨l, hl, h⟩ := Except.bind_ok h
    have hts := summands_ok ht
    simp only [summands] at hts
    obtain ⟨h1, h2⟩ := forall₂_sum (I := I) (S := S) (v := fun p : Ket ι K => c.ev I *ᵥ p.ev I) hl (by
      intro p hp x hx
      exact opKet_exp hs hst hx hc (hts.1 p hp))
    have := foldPlus_spec hg h h1
    rw [h2] at this
    convert this using 1
    rw [← hts.2, mulVec_list_sum, List.map_map]
    rfl
  · rename_i cs _
    obtain ⟨l, hl, h⟩ := Except.bind_ok h
    rw [Op.wf, opsWf_iff] at hct
    rw [Op.ev, opEvL_eq] at he
    obtain ⟨h1, h2⟩ := forall₂_sum (I := I) (S := S) (v := fun p : Op ι K => p.ev I *ᵥ et.ev I) hl (by
      intro p hp x hx
      exact opKet_exp hs hst hx (hct p hp) ht.okOn)
    have := foldPlus_spec hg h h1
    rw [h2] at this
    convert this using 1
    rw [← ht.ev, ← he, list_sum_mulVec, List.map_map]
    rfl
  · have := opKet_exp hs hst h hct ht.okOn
    rw [he, ht.ev] at this
    exact this

theorem wf_okOn {t : Ket ι K} (h : t.wf d) : OkOn d t.space t := by
  refine ⟨h, ?_⟩
  cases hz : t.isZero
  · exact .inr ⟨rfl, rfl⟩
  · exact .inl (isZero_iff.mp hz)

theorem again_spec {rec' : Ket ι K → Res (Ket ι K)} (hrec : ∀ t r, rec' t = .ok r → t.wf d → Exp I t.space r (t.ev I)) {S : Finset ι}
    {x r : Ket ι K} {v : Vec d K} (h : again rec' x = .ok r) (hx : Exp I S x v) : Exp I S r v := by
  unfold again at h
  split at h
  · have := hrec _ _ h hx.wf
    rw [hx.ev] at this
    rcases hx.sp with hz | hz
    · cases hz
    · rwa [hz.2] at this
  · injection h with h
    exact h ▸ hx

theorem expandKet_spec (hs : mk.Sound I) (hst : mk.Safe) (hg : Γ.Sound I) : ∀ (n : ℕ) (t r : Ket ι K), expandKet mk Γ n t = .ok r → t.wf d →
    Exp I t.space r (t.ev I) := by
  intro n
  induction n with
  | zero => intro t r h; cases h
  | succ n ih =>
    intro t r h ht
    have triv : ∀ x : Ket ι K, x.wf d → (.ok x : Res (Ket ι K)) = .ok r → Exp I x.space r (x.ev I) := by
      intro x hx h
      injection h with h; subst h
      exact ⟨hx, rfl, (wf_okOn hx).2⟩
    cases t with
    | plus l =>
      rw [expandKet] at h
      obtain ⟨es, hes, h⟩ := Except.bind_ok h
      rw [Ket.wf, ketsWf_iff] at ht
      have hl : ∀ x ∈ l, x.space = spaceL l := by
        intro x hx
        have := List.all_eq_true.mp ht.2 x hx
        simp only [Bool.and_eq_true, Bool.not_eq_true', decide_eq_true_eq] at this
        exact this.2
      obtain ⟨h1, h2⟩ := forall₂_sum (I := I) (S := spaceL l) (v := fun t => t.ev I) hes (by
        intro a ha x hx
        have := ih a x hx (ht.1 a ha)
        rwa [hl a ha] at this)
      have := hg.plus _ _ (spaceL l) h h1
      rw [h2] at this
      rw [Ket.space, Ket.ev, evL_eq]
      exact this
    | tensor l =>
      rw [expandKet] at h
      obtain ⟨es, hes, h⟩ := Except.bind_ok h
      obtain ⟨ss, hss, h⟩ := Except.bind_ok h
      obtain ⟨x, hx, h⟩ := Except.bind_ok h
      rw [Ket.wf, ketsWf_iff] at ht
      have hF : List.Forall₂ (fun t e => Exp I t.space e (t.ev I)) l es := by
        have := QNET.Indexed.mapM_ok_forall₂ hes
        have hw := ht.1
        clear * - this hw ih
        induction this with
        | nil => exact .nil
        | cons h1 h2 ih' => exact .cons (ih _ _ h1 (hw _ (by simp))) (ih' fun t ht => hw t (List.mem_cons_of_mem _ ht))
      have hv : (es.map (fun e => ((summands e).map (Ket.ev I)).sum)).prod = (l.map (Ket.ev I)).prod := by
        clear * - hF
        induction hF with
        | nil => rfl
        | cons h1 h2 ih => rw [List.map_cons, List.map_cons, List.prod_cons, List.prod_cons, ih, (summands_ok h1).2]
      have hch : ∀ c ∈ choices (es.map summands), List.Forall₂ (fun t x => OkOn d t.space x) l c := by
        intro c hc
        have := mem_choices hc
        clear * - this hF
        induction hF generalizing c with
        | nil => cases this; exact .nil
        | cons h1 h2 ih =>
          rw [List.map_cons] at this
          cases this with
          | cons a b => exact .cons ((summands_ok h1).1 _ a) (ih _ b)
      have hdis : (spaceL l).val = (l.map (fun x => x.space.val)).sum := by
        rw [← (disjointFrom_spec ht.2.2).2]
      obtain ⟨h1, h2⟩ := forall₂_sum (I := I) (S := spaceL l) (v := fun c => (c.map (Ket.ev I)).prod) hss (by
        intro c hc x hx
        have hf := hch c hc
        obtain ⟨m1, m2, m3⟩ := mulAll_spec hs hx (by
          clear * - hf
          induction hf with
          | nil => simp
          | cons a b ih =>
            intro x hx
            rcases List.mem_cons.mp hx with rfl | hx
            · exact a.1
            · exact ih x hx)
        refine ⟨m1, m2, m3.imp id fun m => ⟨m.2.1, ?_⟩⟩
        refine Finset.val_injective ?_
        rw [m.2.2, hdis]
        have hm := m.1
        clear * - hf hm
        induction hf with
        | nil => rfl
        | cons a b ih =>
          simp only [List.mem_cons, not_or] at hm
          rw [List.map_cons, List.map_cons, List.sum_cons, List.sum_cons, ih hm.2]
          rcases a.2 with a | a
          · exact absurd a.symm hm.1
          · rw [a.2])
      have := addAll_spec hg hx h1
      rw [h2, choices_sum, List.map_map, show ((fun x : List (Ket ι K) => (x.map (Ket.ev I)).sum) ∘ summands) = fun e => ((summands e).map (Ket.ev I)).sum from rfl, hv] at this
      have := again_spec ih h this
      rw [Ket.space, Ket.ev, evL_eq]
      exact this
    | scal c t =>
      rw [expandKet] at h
      obtain ⟨cs, hcs, h⟩ := Except.bind_ok h
      obtain ⟨et, het, h⟩ := Except.bind_ok h
      obtain ⟨ss, hss, h⟩ := Except.bind_ok h
      obtain ⟨x, hx, h⟩ := Except.bind_ok h
      rw [Ket.wf] at ht
      obtain ⟨c1, c2⟩ := hg.scExpand _ _ hcs ht.1
      have hts := summands_ok (ih t et het ht.2.1)
      obtain ⟨h1, h2⟩ := forall₂_sum (I := I) (S := t.space) (v := fun p : Sc ι K × Ket ι K => p.1.ev I • p.2.ev I) hss (by
        intro p hp x hx
        simp only [List.mem_flatMap, List.mem_map] at hp
        obtain ⟨c, hc, t, ht, rfl⟩ := hp
        exact scalKet_exp hs hx (c1 c hc) (hts.1 t ht))
      have := addAll_spec hg hx h1
      have := again_spec ih h this
      rw [Ket.space, Ket.ev]
      convert this using 1
      rw [h2, ← c2, ← hts.2]
      clear * -
      induction cs with
      | nil => simp
      | cons c cs ih =>
        rw [List.map_cons, List.sum_cons, add_smul, ih, List.flatMap_cons, List.map_append, List.sum_append]
        congr 1
        rw [List.smul_sum, List.map_map, List.map_map]
        rfl
    | opKet c t =>
      rw [expandKet] at h
      obtain ⟨ct, hct, h⟩ := Except.bind_ok h
      obtain ⟨et, het, h⟩ := Except.bind_ok h
      rw [Ket.wf] at ht
      obtain ⟨c1, c2⟩ := hg.opExpand _ _ hct ht.1
      have := expandOpKet_spec hs hst hg h ht.1 c1 c2 (ih t et het ht.2.1)
      rw [Ket.space, Ket.ev]
      exact this
    | _ => exact triv _ ht h

theorem inner_list_sum_right (S : Finset ι) (x : Cfg d) (f : Vec d K) (l : List (Vec d K)) : inner S x f l.sum = (l.map (inner S x f)).sum := by
  induction l with
  | nil => simp [inner_zero_right]
  | cons a l ih =>
    rw [List.map_cons, List.sum_cons, List.sum_cons, ← ih, inner, inner, inner, ← Finset.sum_add_distrib]
    refine Finset.sum_congr rfl fun z _ => ?_
    split
    · simp [mul_add]
    · simp

theorem inner_list_sum_left (S : Finset ι) (x : Cfg d) (g : Vec d K) (l : List (Vec d K)) : inner S x l.sum g = (l.map (fun f => inner S x f g)).sum := by
  induction l with
  | nil => simp [inner_zero_left]
  | cons a l ih =>
    rw [List.map_cons, List.sum_cons, List.sum_cons, ← ih, inner, inner, inner, ← Finset.sum_add_distrib]
    refine Finset.sum_congr rfl fun z _ => ?_
    split
    · simp [add_mul]
    · simp

theorem outer_list_sum_right (S : Finset ι) (f : Vec d K) (l : List (Vec d K)) : outer S f l.sum = (l.map (outer S f)).sum := by
  induction l with
  | nil => simp [outer_zero_right]
  | cons a l ih =>
    rw [List.map_cons, List.sum_cons, List.sum_cons, ← ih]
    ext x y
    simp only [outer, of_apply, add_apply, Pi.add_apply, star_add]
    split
    · rw [mul_add]
    · simp

theorem outer_list_sum_left (S : Finset ι) (g : Vec d K) (l : List (Vec d K)) : outer S l.sum g = (l.map (fun f => outer S f g)).sum := by
  induction l with
  | nil => simp [outer_zero_left]
  | cons a l ih =>
    rw [List.map_cons, List.sum_cons, List.sum_cons, ← ih]
    ext x y
    simp only [outer, of_apply, add_apply, Pi.add_apply]
    split
    · rw [add_mul]
    · simp

/-- two kets which are zero or of the same space -/
theorem OkOn.same {S : Finset ι} {x y : Ket ι K} (hx : OkOn d S x) (hy : OkOn d S y) : Same x y := by
  rcases hx.2 with hx | hx
  · exact .inl hx
  rcases hy.2 with hy | hy
  · exact .inr (.inl hy)
  · exact .inr (.inr (hx.2.trans hy.2.symm))

/-- `expand()` of two states of the same space, or of which one is zero -/
theorem expand_two (hs : mk.Sound I) (hst : mk.Safe) (hg : Γ.Sound I) {n : ℕ} {a b a' b' : Ket ι K} (ha : expandKet mk Γ n a = .ok a')
    (hb : expandKet mk Γ n b = .ok b') (wa : a.wf d) (wb : b.wf d) (hsp : Same a b) :
    (a' = .zero ∧ a.ev I = 0 ∧ ∃ S, Exp I S b' (b.ev I)) ∨ (Exp I a.space a' (a.ev I) ∧ Exp I a.space b' (b.ev I)) := by
  have ea := expandKet_spec hs hst hg n a a' ha wa
  have eb := expandKet_spec hs hst hg n b b' hb wb
  rcases hsp with rfl | rfl | h
  · refine .inl ⟨?_, by rw [Ket.ev], _, eb⟩
    cases n with
    | zero => cases ha
    | succ n => injection ha with h; exact h.symm
  · refine .inr ⟨ea, ?_⟩
    have : b' = .zero := by
      cases n with
      | zero => cases hb
      | succ n => injection hb with h; exact h.symm
    subst this
    exact ⟨eb.wf, eb.ev, .inl rfl⟩
  · rw [← h] at eb
    exact .inr ⟨ea, eb⟩

theorem braKet_pairs (hs : mk.Sound I) (hst : mk.Safe) {n : ℕ} {S : Finset ι} {l m : List (Ket ι K)} {r : List (Sc ι K)}
    (h : (l.flatMap (fun x => m.map (fun y => (x, y)))).mapM (fun p => braKet mk n p.1 p.2) = .ok r)
    (hl : ∀ x ∈ l, OkOn d S x) (hm : ∀ x ∈ m, OkOn d S x) :
    (∀ x ∈ r, x.wf d) ∧ (r.map (Sc.ev I)).sum = inner S I.ref (l.map (Ket.ev I)).sum (m.map (Ket.ev I)).sum := by
  replace h := QNET.Indexed.mapM_ok_forall₂ h
  have key : ∀ x y s, x ∈ l → y ∈ m → braKet mk n x y = .ok s → s.wf d ∧ s.ev I = inner S I.ref (x.ev I) (y.ev I) := by
    intro x y s hx hy h
    obtain ⟨h1, h2⟩ := braKet_spec hs hst n x y s h (hl x hx).1 (hm y hy).1 ((hl x hx).same (hm y hy))
    refine ⟨h1, ?_⟩
    rcases (hl x hx).2 with h0 | h0
    · rw [h2, h0, Ket.ev, inner_zero_left, inner_zero_left]
    · rw [h2, h0.2]
  have e : inner S I.ref (l.map (Ket.ev I)).sum (m.map (Ket.ev I)).sum =
      ((l.flatMap (fun x => m.map (fun y => (x, y)))).map (fun p => inner S I.ref (p.1.ev I) (p.2.ev I))).sum := by
    rw [inner_list_sum_left, List.map_map]
    clear h key hl
    induction l with
    | nil => simp
    | cons x l ih =>
      rw [List.map_cons, List.sum_cons, ih, List.flatMap_cons, List.map_append, List.sum_append]
      congr 1
      show inner S I.ref (x.ev I) _ = _
      rw [inner_list_sum_right, List.map_map, List.map_map]
      rfl
  rw [e]
  have hp : ∀ p ∈ l.flatMap (fun x => m.map (fun y => (x, y))), p.1 ∈ l ∧ p.2 ∈ m := by
    intro p hp
    simp only [List.mem_flatMap, List.mem_map] at hp
    obtain ⟨x, hx, y, hy, rfl⟩ := hp
    exact ⟨hx, hy⟩
  generalize l.flatMap (fun x => m.map (fun y => (x, y))) = ps at h hp
  clear e
  induction h with
  | nil => simp
  | cons a b ih =>
    have hp1 := hp _ (List.mem_cons_self)
    obtain ⟨k1, k2⟩ := key _ _ _ hp1.1 hp1.2 a
    obtain ⟨i1, i2⟩ := ih fun p h => hp p (List.mem_cons_of_mem _ h)
    refine ⟨fun x hx => ?_, by rw [List.map_cons, List.map_cons, List.sum_cons, List.sum_cons, i2, k2]⟩
    rcases List.mem_cons.mp hx with rfl | hx
    · exact k1
    · exact i1 x hx

theorem ketBra_pairs (hs : mk.Sound I) {n : ℕ} {S : Finset ι} {l m : List (Ket ι K)} {r : List (Op ι K)}
    (h : (l.flatMap (fun x => m.map (fun y => (x, y)))).mapM (fun p => ketBra mk n p.1 p.2) = .ok r)
    (hl : ∀ x ∈ l, OkOn d S x) (hm : ∀ x ∈ m, OkOn d S x) :
    (∀ x ∈ r, x.wf d) ∧ (r.map (Op.ev I)).sum = outer S (l.map (Ket.ev I)).sum (m.map (Ket.ev I)).sum := by
  replace h := QNET.Indexed.mapM_ok_forall₂ h
  have key : ∀ x y s, x ∈ l → y ∈ m → ketBra mk n x y = .ok s → s.wf d ∧ s.ev I = outer S (x.ev I) (y.ev I) := by
    intro x y s hx hy h
    obtain ⟨h1, h2⟩ := ketBra_spec hs n x y s h (hl x hx).1 (hm y hy).1 ((hl x hx).same (hm y hy))
    refine ⟨h1, ?_⟩
    rcases (hl x hx).2 with h0 | h0
    · rw [h2, h0, Ket.ev, outer_zero_left, outer_zero_left]
    · rw [h2, h0.2]
  have e : outer S (l.map (Ket.ev I)).sum (m.map (Ket.ev I)).sum =
      ((l.flatMap (fun x => m.map (fun y => (x, y)))).map (fun p => outer S (p.1.ev I) (p.2.ev I))).sum := by
    rw [outer_list_sum_left, List.map_map]
    clear h key hl
    induction l with
    | nil => simp
    | cons x l ih =>
      rw [List.map_cons, List.sum_cons, ih, List.flatMap_cons, List.map_append, List.sum_append]
      congr 1
      show outer S (x.ev I) _ = _
      rw [outer_list_sum_right, List.map_map, List.map_map]
      rfl
  rw [e]
  have hp : ∀ p ∈ l.flatMap (fun x => m.map (fun y => (x, y))), p.1 ∈ l ∧ p.2 ∈ m := by
    intro p hp
    simp only [List.mem_flatMap, List.mem_map] at hp
    obtain ⟨x, hx, y, hy, rfl⟩ := hp
    exact ⟨hx, hy⟩
  generalize l.flatMap (fun x => m.map (fun y => (x, y))) = ps at h hp
  clear e
  induction h with
  | nil => simp
  | cons a b ih =>
    have hp1 := hp _ (List.mem_cons_self)
    obtain ⟨k1, k2⟩ := key _ _ _ hp1.1 hp1.2 a
    obtain ⟨i1, i2⟩ := ih fun p h => hp p (List.mem_cons_of_mem _ h)
    refine ⟨fun x hx => ?_, by rw [List.map_cons, List.map_cons, List.sum_cons, List.sum_cons, i2, k2]⟩
    rcases List.mem_cons.mp hx with rfl | hx
    · exact k1
    · exact i1 x hx

theorem zero_okOn {S : Finset ι} {x : Ket ι K} (h : x = .zero) : OkOn d S x := ⟨by rw [h, Ket.wf]; trivial, .inl h⟩

/-! ### C101 -/

/-- C101: whatever ket `expand()` returns denotes the same state, belongs to the same space (or is `ZeroKet`), and is well-formed; for
every ket, every interpretation, and every recursion limit. Missing: that it returns; and `mk.Safe`, without which products of operators are
applied wrongly (`C58_refuted`). -/
theorem C101_ket_partial (hs : mk.Sound I) (hst : mk.Safe) (hg : Γ.Sound I) {n : ℕ} {t r : Ket ι K} (h : expandKet mk Γ n t = .ok r) (ht : t.wf d) :
    r.wf d ∧ r.ev I = t.ev I ∧ (r = .zero ∨ r.space = t.space) := by
  obtain ⟨h1, h2, h3⟩ := expandKet_spec hs hst hg n t r h ht
  exact ⟨h1, h2, h3.imp id And.right⟩

/-- C101: the same for an inner product: its expansion is the same number -/
theorem C101_braket_partial (hs : mk.Sound I) (hst : mk.Safe) (hg : Γ.Sound I) {n : ℕ} {b k : Ket ι K} {r : Sc ι K} (h : expandBraKet mk Γ n b k = .ok r)
    (hw : (Sc.braket b k).wf d) : r.wf d ∧ r.ev I = (Sc.braket b k).ev I := by
  rw [Sc.wf] at hw
  obtain ⟨hb, hk, hsp⟩ := hw
  obtain ⟨be, hbe, h⟩ := Except.bind_ok h
  obtain ⟨ke, hke, h⟩ := Except.bind_ok h
  obtain ⟨l, hl, h⟩ := Except.bind_ok h
  rw [Sc.ev]
  have fin : ∀ S, (∀ x ∈ summands be, OkOn d S x) → (∀ x ∈ summands ke, OkOn d S x) →
      r.wf d ∧ r.ev I = inner S I.ref ((summands be).map (Ket.ev I)).sum ((summands ke).map (Ket.ev I)).sum := by
    intro S h1 h2
    obtain ⟨p1, p2⟩ := braKet_pairs hs hst hl h1 h2
    obtain ⟨r1, r2⟩ := hg.scSum _ _ h p1
    exact ⟨r1, r2.trans p2⟩
  rcases expand_two hs hst hg hbe hke hb hk (sameSpace_cases hsp) with ⟨h0, h0', S, hS⟩ | ⟨h1, h2⟩
  · subst h0
    have := fin S (fun x hx => zero_okOn (by simpa [summands] using hx)) (summands_ok hS).1
    refine ⟨this.1, ?_⟩
    rw [this.2, h0', inner_zero_left]
    simp [summands, Ket.ev, inner_zero_left]
  · have := fin _ (summands_ok h1).1 (summands_ok h2).1
    rw [(summands_ok h1).2, (summands_ok h2).2] at this
    exact this

/-- C101: the same for an outer product: its expansion is the same operator -/
theorem C101_ketbra_partial (hs : mk.Sound I) (hst : mk.Safe) (hg : Γ.Sound I) {n : ℕ} {k b : Ket ι K} {r : Op ι K} (h : expandKetBra mk Γ n k b = .ok r)
    (hw : (Op.ketBra k b).wf d) : r.wf d ∧ r.ev I = (Op.ketBra k b).ev I := by
  rw [Op.wf] at hw
  obtain ⟨hk, hb, hsp⟩ := hw
  obtain ⟨be, hbe, h⟩ := Except.bind_ok h
  obtain ⟨ke, hke, h⟩ := Except.bind_ok h
  obtain ⟨l, hl, h⟩ := Except.bind_ok h
  rw [Op.ev]
  have fin : ∀ S, (∀ x ∈ summands ke, OkOn d S x) → (∀ x ∈ summands be, OkOn d S x) →
      r.wf d ∧ r.ev I = outer S ((summands ke).map (Ket.ev I)).sum ((summands be).map (Ket.ev I)).sum := by
    intro S h1 h2
    obtain ⟨p1, p2⟩ := ketBra_pairs hs hl h1 h2
    obtain ⟨r1, r2⟩ := hg.opSum _ _ h p1
    exact ⟨r1, r2.trans p2⟩
  rcases expand_two hs hst hg hke hbe hk hb (sameSpace_cases hsp) with ⟨h0, h0', S, hS⟩ | ⟨h1, h2⟩
  · subst h0
    have := fin S (fun x hx => zero_okOn (by simpa [summands] using hx)) (summands_ok hS).1
    refine ⟨this.1, ?_⟩
    rw [this.2, h0', outer_zero_left]
    simp [summands, Ket.ev, outer_zero_left]
  · have := fin _ (summands_ok h1).1 (summands_ok h2).1
    rw [(summands_ok h1).2, (summands_ok h2).2] at this
    exact this

/-- C101: the bra of a ket that `expand()` does not turn into a sum can be expanded, to the bra of the same state -/
theorem C101_bra_partial (hs : mk.Sound I) (hst : mk.Safe) (hg : Γ.Sound I) {n : ℕ} {t r : Ket ι K} (h : expandBra mk Γ n t = .ok r) (ht : t.wf d) :
    r.wf d ∧ r.ev I = t.ev I ∧ (r = .zero ∨ r.space = t.space) := by
  obtain ⟨e, he, h⟩ := Except.bind_ok h
  have : e = r := by
    split at h
    · cases h
    · injection h
  exact C101_ket_partial hs hst hg (this ▸ he) ht

end thm

/-! ### examples -/

/-- sums of kets -/
def exPlus (l : List (Ket (Fin 3) ℤ)) : Res (Ket (Fin 3) ℤ) :=
  match (l.flatMap summands).filter (fun x => !x.isZero) with
  | [] => .ok .zero
  | [x] => .ok x
  | l => if sameSpaces l then .ok (.plus l) else .error .algebraError

/-- sums of numbers -/
def exScSum : List (Sc (Fin 3) ℤ) → Res (Sc (Fin 3) ℤ)
  | [] => .ok (.val 0)
  | .val k :: l => exScSum l >>= fun s =>
    match s with
    | .val j => .ok (.val (k + j))
    | _ => .error .typeError
  | _ => .error .typeError

/-- sums of kets, numbers and operators -/
def exΓ : ExpandCtx (Fin 3) ℤ where
  plus := exPlus
  scSum := exScSum
  opSum l := .ok (.plus l)
  scExpand c := .ok [c]
  opExpand A := .ok A

theorem filter_ev (l : List (Ket (Fin 3) ℤ)) : ((l.filter (fun x => !x.isZero)).map (Ket.ev exI)).sum = (l.map (Ket.ev exI)).sum := by
  induction l with
  | nil => rfl
  | cons a l ih =>
    rw [List.filter_cons, List.map_cons, List.sum_cons, ← ih]
    cases h : a.isZero
    · simp
    · rw [isZero_iff.mp h, Ket.ev]
      simp

theorem flat_ok {l : List (Ket (Fin 3) ℤ)} {S : Finset (Fin 3)} (h : ∀ x ∈ l, OkOn exD S x) :
    (∀ x ∈ l.flatMap summands, OkOn exD S x) ∧ ((l.flatMap summands).map (Ket.ev exI)).sum = (l.map (Ket.ev exI)).sum := by
  induction l with
  | nil => simp
  | cons a l ih =>
    obtain ⟨i1, i2⟩ := ih fun x hx => h x (List.mem_cons_of_mem _ hx)
    have ha := h a (by simp)
    obtain ⟨s1, s2⟩ := summands_ok (I := exI) (S := S) (r := a) ⟨ha.1, rfl, ha.2⟩
    rw [List.flatMap_cons, List.map_append, List.sum_append, i2, s2]
    refine ⟨fun x hx => ?_, by simp⟩
    rcases List.mem_append.mp hx with hx | hx
    · exact s1 x hx
    · exact i1 x hx

theorem spaceL_const {l : List (Ket (Fin 3) ℤ)} {S : Finset (Fin 3)} (h : ∀ x ∈ l, x.space = S) (hl : l ≠ []) : spaceL l = S := by
  induction l with
  | nil => exact absurd rfl hl
  | cons a l ih =>
    rw [spaceL, h a (by simp)]
    cases l with
    | nil => rw [spaceL]; simp
    | cons b l => rw [ih (fun x hx => h x (List.mem_cons_of_mem _ hx)) (by simp)]; simp

theorem exΓ_sound : exΓ.Sound exI where
  plus := by
    intro l r S h hl
    obtain ⟨f1, f2⟩ := flat_ok hl
    have g1 : ∀ x ∈ (l.flatMap summands).filter (fun x => !x.isZero), x.wf exD ∧ x.isZero = false ∧ x.space = S := by
      intro x hx
      rw [List.mem_filter] at hx
      have hz : x.isZero = false := by simpa using hx.2
      obtain ⟨w, o | o⟩ := f1 x hx.1
      · rw [o] at hz; cases hz
      · exact ⟨w, o⟩
    have g2 := (filter_ev (l.flatMap summands)).trans f2
    change exPlus l = .ok r at h
    unfold exPlus at h
    generalize (l.flatMap summands).filter (fun x => !x.isZero) = m at h g1 g2
    rw [← g2]
    split at h
    · injection h with h; subst h
      exact ⟨by rw [Ket.wf]; trivial, by rw [Ket.ev]; rfl, .inl rfl⟩
    · injection h with h; subst h
      obtain ⟨w, o⟩ := g1 _ (List.mem_singleton.mpr rfl)
      exact ⟨w, by simp, .inr o⟩
    · rename_i h0 h1
      split at h
      · rename_i hs
        injection h with h; subst h
        refine ⟨by rw [Ket.wf, ketsWf_iff]; exact ⟨fun x hx => (g1 x hx).1, hs⟩, by rw [Ket.ev, evL_eq], .inr ⟨rfl, ?_⟩⟩
        rw [Ket.space]
        exact spaceL_const (fun x hx => (g1 x hx).2.2) fun e => h0 e
      · cases h
  scSum := by
    intro l
    induction l with
    | nil => intro r h _; injection h with h; subst h; exact ⟨by rw [Sc.wf]; trivial, by rw [Sc.ev]; rfl⟩
    | cons a l ih =>
      intro r h hl
      cases a with
      | val k =>
        obtain ⟨s, hs, h⟩ := Except.bind_ok h
        obtain ⟨i1, i2⟩ := ih s hs fun x hx => hl x (List.mem_cons_of_mem _ hx)
        cases s with
        | val j =>
          injection h with h; subst h
          refine ⟨by rw [Sc.wf]; trivial, ?_⟩
          rw [List.map_cons, List.sum_cons, ← i2, Sc.ev, Sc.ev, Sc.ev]
        | _ => cases h
      | _ => cases h
  opSum := by
    intro l r h hl
    injection h with h; subst h
    exact ⟨by rw [Op.wf, opsWf_iff]; exact hl, by rw [Op.ev, opEvL_eq]⟩
  scExpand := by
    intro c l h hc
    injection h with h; subst h
    exact ⟨fun x hx => by rw [List.mem_singleton] at hx; exact hx ▸ hc, by simp⟩
  opExpand := by
    intro A B h hA
    injection h with h; subst h
    exact ⟨hA, rfl⟩

/-- `|0> + |1>` of a local space -/
def plus01 (l : Fin 3) : Ket (Fin 3) ℤ := .plus [.basis 0 l, .basis 1 l]

theorem plus01_wf (l : Fin 3) : (plus01 l).wf exD := by
  rw [plus01, Ket.wf, ketsWf_iff]
  refine ⟨fun t ht => ?_, ?_⟩
  · simp only [List.mem_cons, List.not_mem_nil, or_false] at ht
    rcases ht with rfl | rfl <;> rw [Ket.wf] <;> simp [exD]
  · fin_cases l <;> kernel_rfl

/-- `(|0> + |1>) (|0> + |1>)`, a multiple of a sum, an operator `X + Y` applied to a sum, an inner and an outer product -/
example : expandKet exMk.checked exΓ 9 (.tensor [plus01 0, plus01 1]) = .ok (.plus [.tensor [.basis 0 0, .basis 0 1], .tensor [.basis 0 0, .basis 1 1],
      .tensor [.basis 1 0, .basis 0 1], .tensor [.basis 1 0, .basis 1 1]]) ∧
    expandKet exMk.checked exΓ 9 (.scal (.val 3) (plus01 0)) = .ok (.plus [.scal (.val 3) (.basis 0 0), .scal (.val 3) (.basis 1 0)]) ∧
    expandKet exMk.checked exΓ 9 (.opKet (.plus [.sym 0 {0}, .sym 1 {0}]) (.sym 1 {0})) =
      .ok (.plus [.opKet (.sym 0 {0}) (.sym 1 {0}), .opKet (.sym 1 {0}) (.sym 1 {0})]) ∧
    expandBraKet exMk.checked exΓ 9 (plus01 0) (plus01 0) = .ok (.val 2) ∧
    expandKetBra exMk.checked exΓ 9 (plus01 0) (plus01 0) = .ok (.plus [.sigma 0 0 0, .sigma 0 1 0, .sigma 1 0 0, .sigma 1 1 0]) :=
  ⟨by kernel_rfl, by kernel_rfl, by kernel_rfl, by kernel_rfl, by kernel_rfl⟩

/-- these are meant by `C101_ket_partial`, `C101_braket_partial` and `C101_ketbra_partial` -/
example : exMk.checked.Sound exI ∧ exMk.checked.Safe ∧ exΓ.Sound exI ∧ (Ket.tensor [plus01 0, plus01 1]).wf exD ∧
    (Sc.braket (plus01 0) (plus01 0)).wf exD ∧ (Op.ketBra (plus01 0) (plus01 0)).wf exD := by
  refine ⟨exMk_sound.checked, .inl rfl, exΓ_sound, ?_, ?_, ?_⟩
  · rw [Ket.wf, ketsWf_iff]
    refine ⟨fun t ht => ?_, by kernel_rfl, by kernel_rfl⟩
    simp only [List.mem_cons, List.not_mem_nil, or_false] at ht
    rcases ht with rfl | rfl <;> exact plus01_wf _
  · rw [Sc.wf]; exact ⟨plus01_wf 0, plus01_wf 0, by kernel_rfl⟩
  · rw [Op.wf]; exact ⟨plus01_wf 0, plus01_wf 0, by kernel_rfl⟩

/-- C101 is false for bras: `Bra(|0> + |1>).expand()` raises an `AttributeError`, although the ket can be expanded -/
theorem C101_refuted_bra : (plus01 0).wf exD ∧ expandKet exMk.code exΓ 9 (plus01 0) = .ok (plus01 0) ∧
    expandBra exMk.code exΓ 9 (plus01 0) = .error .attributeError := ⟨plus01_wf 0, by kernel_rfl, by kernel_rfl⟩

end QNET.State
