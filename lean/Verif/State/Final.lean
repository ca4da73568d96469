import Verif.State.Main

/-!
# C58, C59: products of kets, bras, operators and scalars

`Elt.Product` says what `x * y` has to be. `C58_*` prove that what `x * y` returns is that, `C59_*` which products of states on unsuitable
spaces are refused.
-/

namespace QNET.State

open QNET.Perm (Res Err)
open QNET.Trace (Cfg Mat ActsOn embed embed_actsOn actsOn_zero actsOn_one)
open QNET.Indexed (Except.bind_ok)
open Matrix

variable {ι K : Type} [Fintype ι] [DecidableEq ι] [CommRing K] [StarRing K] [DecidableEq K] {d : ι → ℕ} {I : Interp ι d K} {mk : Mk ι K}

/-! ## specification -/

/-- well-formed operands -/
def Elt.wf (d : ι → ℕ) : Elt ι K → Prop
  | .ket a => a.wf d
  | .bra a => a.wf d
  | .op A => A.wf d
  | .sc c => c.wf d

/-- The result `z` is the product of `x` and `y`: the product of wave functions of different degrees of freedom, the operator
`|a><b|`, the number `<a|b>`, the operator applied to the ket, and scalar multiples. A bra is represented by its ket, so that an
operator to its right acts as the adjoint and a factor as the conjugate. -/
def Elt.Product (I : Interp ι d K) : Elt ι K → Elt ι K → Elt ι K → Prop
  | .ket a, .ket b, .ket c => c.ev I = a.ev I * b.ev I
  | .bra a, .bra b, .bra c => c.ev I = a.ev I * b.ev I
  | .ket a, .bra b, .op X => X.ev I = outer a.space (a.ev I) (b.ev I)
  | .bra a, .ket b, .sc s => s.ev I = inner a.space I.ref (a.ev I) (b.ev I)
  | .op A, .ket a, .ket c => c.ev I = A.ev I *ᵥ a.ev I
  | .bra a, .op A, .bra c => c.ev I = (A.ev I)ᴴ *ᵥ a.ev I
  | .ket a, .sc c, .ket b => b.ev I = c.ev I • a.ev I
  | .sc c, .ket a, .ket b => b.ev I = c.ev I • a.ev I
  | .bra a, .sc c, .bra b => b.ev I = star (c.ev I) • a.ev I
  | .sc c, .bra a, .bra b => b.ev I = star (c.ev I) • a.ev I
  | _, _, _ => False

/-- the two states of an inner or outer product belong to the same space (or one is zero) -/
def Elt.Compatible : Elt ι K → Elt ι K → Prop
  | .ket a, .bra b => Same a b
  | .bra a, .ket b => Same a b
  | _, _ => True

/-! ## the separation of products is checked, or not -/

/-- the code: nothing is checked -/
def Mk.code (mk : Mk ι K) : Mk ι K := { mk with strict := false }
/-- the code with a check in `act_locally_times_tensor` that factors which are separated commute -/
def Mk.checked (mk : Mk ι K) : Mk ι K := { mk with strict := true }

omit [DecidableEq K] in
theorem Mk.Sound.code [DecidableEq K] (h : mk.Sound I) : mk.code.Sound I := ⟨h.1, h.2, h.3, h.4, h.5, h.6, h.7, h.8⟩
omit [DecidableEq K] in
theorem Mk.Sound.checked [DecidableEq K] (h : mk.Sound I) : mk.checked.Sound I := ⟨h.1, h.2, h.3, h.4, h.5, h.6, h.7, h.8⟩

section transfer
omit [StarRing K]

theorem scalKet_code (n : ℕ) : scalKet mk.checked n = scalKet mk.code n := by
  induction n with
  | zero => rfl
  | succ n ih =>
    funext u t
    rw [scalKet, scalKet, ih]
    rfl

theorem tensorCreate_code (n : ℕ) : tensorCreate mk.checked n = tensorCreate mk.code n := by
  induction n with
  | zero => rfl
  | succ n ih =>
    funext ops
    rw [tensorCreate, tensorCreate, ih, scalKet_code]
    rfl

theorem factorKet_code (n : ℕ) : factorKet mk.checked n = factorKet mk.code n := by
  funext spc l
  rw [factorKet, factorKet, tensorCreate_code]

/-- `f` returns whatever `g` returns without error -/
def Le {α β γ : Type} (f g : α → β → Res γ) : Prop := ∀ a b r, f a b = .ok r → g a b = .ok r

theorem bind_le {α β : Type} {x y : Res α} {f g : α → Res β} (h : ∀ r, x = .ok r → y = .ok r) (hf : ∀ a r, f a = .ok r → g a = .ok r) (r : β)
    (hr : (x >>= f) = .ok r) : (y >>= g) = .ok r := by
  obtain ⟨a, ha, hr⟩ := Except.bind_ok hr
  rw [h a ha]
  exact hf a r hr

theorem splitOpKet_code (n : ℕ) (ops : List (Op ι K)) (l : List (Ket ι K)) : ∀ (m : ℕ) (spc : Finset ι) r,
    splitOpKet mk.checked n ops l m spc = .ok r → splitOpKet mk.code n ops l m spc = .ok r := by
  intro m
  induction m with
  | zero => intro spc r h; simp [splitOpKet] at h
  | succ m ih =>
    intro spc r h
    rw [splitOpKet] at h ⊢
    split at h
    · rename_i hc
      rw [if_pos hc]
      refine bind_le (fun _ h => h) (fun A r h => ?_) r h
      rw [factorKet_code] at h
      refine bind_le (fun _ h => h) (fun k r h => ?_) r h
      split at h
      · rename_i hc
        rw [if_pos hc]
        split at h
        · cases h
        · rw [if_neg (by simp [Mk.code])]
          exact h
      · rename_i hc
        rw [if_neg hc]
        exact ih _ _ h
    · rename_i hc
      rw [if_neg hc]
      exact h

theorem firstLocal_le {α : Type} {f g : Finset ι → Res (Option α)} (h : ∀ s r, f s = .ok r → g s = .ok r) (l : List ι) (r)
    (hr : firstLocal f l = .ok r) : firstLocal g l = .ok r := by
  induction l generalizing r with
  | nil => exact hr
  | cons i l ih =>
    rw [firstLocal] at hr ⊢
    refine bind_le (h _) (fun o r h => ?_) r hr
    cases o with
    | none => exact ih r h
    | some x => exact h

variable {ok ok' : Op ι K → Ket ι K → Res (Ket ι K)}

theorem actLocally_le (h : Le ok ok') (n : ℕ) (A : Op ι K) (l : List (Ket ι K)) (r) (hr : actLocally mk.checked ok n A l = .ok r) :
    actLocally mk.code ok' n A l = .ok r := by
  rw [actLocally, factorKet_code] at hr
  rw [actLocally]
  refine bind_le (fun _ h => h) (fun k r hr => ?_) r hr
  simp only at hr ⊢
  split at hr
  · rename_i hc; rw [if_pos hc]; exact hr
  · rename_i hc
    rw [if_neg hc]
    rw [tensorCreate_code] at hr
    exact bind_le (h _ _) (fun _ _ h => h) r hr

theorem actTimesTensor_le (h : Le ok ok') (n : ℕ) (ops : List (Op ι K)) (l : List (Ket ι K)) (r)
    (hr : actTimesTensor mk.checked ok n ops l = .ok r) : actTimesTensor mk.code ok' n ops l = .ok r := by
  rw [actTimesTensor] at hr ⊢
  refine bind_le (firstLocal_le (splitOpKet_code n ops l n) _) (fun o r hr => ?_) r hr
  match o, hr with
  | none, hr => exact hr
  | some (A, k), hr =>
    simp only at hr ⊢
    rw [tensorCreate_code] at hr
    exact bind_le (h _ _) (fun x r hr => bind_le (h _ _) (fun _ _ h => h) r hr) r hr

theorem opKetRest_le (h : Le ok ok') (sk : Sc ι K → Ket ι K → Res (Ket ι K)) (A : Op ι K) (t r : Ket ι K)
    (hr : opKetRest mk.checked sk ok A t = .ok r) : opKetRest mk.code sk ok' A t = .ok r := by
  unfold opKetRest at hr ⊢
  split at hr
  · refine bind_le (h _ _) (fun x r hr => ?_) r hr
    split at hr
    · rename_i hc
      rw [if_pos hc]
      exact bind_le (fun _ h => h) (fun x r hr => h _ _ _ hr) r hr
    · rename_i hc
      rw [if_neg hc]
      exact h _ _ _ hr
  · split at hr
    · rename_i hc
      rw [if_pos hc]
      exact bind_le (fun _ h => h) (fun x r hr => bind_le (h _ _) (fun _ _ hr => h _ _ _ hr) r hr) r hr
    · rename_i hc
      rw [if_neg hc]
      exact hr
  · exact bind_le (h _ _) (fun _ _ h => h) r hr
  · exact hr

theorem opKetTensor_le (h : Le ok ok') (sk : Sc ι K → Ket ι K → Res (Ket ι K)) (n : ℕ) (A : Op ι K) (t r : Ket ι K)
    (hr : opKetTensor mk.checked sk ok n A t = .ok r) : opKetTensor mk.code sk ok' n A t = .ok r := by
  unfold opKetTensor at hr ⊢
  split at hr
  · split at hr
    · rename_i hc
      rw [if_pos hc]
      exact bind_le (actLocally_le h n A _) (fun _ _ h => h) r hr
    · rename_i hc
      rw [if_neg hc]
      split at hr
      · exact bind_le (actTimesTensor_le h n _ _) (fun _ _ h => h) r hr
      · exact opKetRest_le h sk _ _ _ hr
  · exact opKetRest_le h sk _ _ _ hr

theorem opKet_le (n : ℕ) : Le (opKet mk.checked n) (opKet mk.code n) := by
  induction n with
  | zero => intro A t r h; simp [opKet] at h
  | succ n ih =>
    intro A t r h
    rw [opKet.eq_def] at h ⊢
    simp only at h ⊢
    split at h
    · exact h
    · exact h
    · rw [scalKet_code] at h
      unfold opKetStep at h ⊢
      split at h
      · exact h
      · exact bind_le (ih _ _) (fun _ _ h => h) r h
      · have e : opKetLocal mk.checked A t = opKetLocal mk.code A t := rfl
        rw [e] at h
        split at h
        · exact h
        · exact opKetTensor_le ih _ n A t r h

theorem splitKets_code (n : ℕ) (a b : List (Ket ι K)) (m : ℕ) : splitKets mk.checked n a b m = splitKets mk.code n a b m := by
  induction m with
  | zero => rfl
  | succ m ih =>
    funext spc
    rw [splitKets, splitKets, ih, factorKet_code]

theorem decompose_code (n : ℕ) : decompose mk.checked n = decompose mk.code n := by
  funext a b
  rw [decompose, decompose, splitKets_code]
  rfl

theorem braKet_le (n : ℕ) : Le (braKet mk.checked n) (braKet mk.code n) := by
  induction n with
  | zero => intro A t r h; simp [braKet] at h
  | succ n ih =>
    intro a b r h
    rw [braKet] at h ⊢
    unfold braKetStep at h ⊢
    split at h
    · exact h
    · exact h
    · exact h
    · exact h
    · rw [decompose_code] at h
      refine bind_le (fun _ h => h) (fun o r h => ?_) r h
      match o, h with
      | none, h => exact h
      | some (x, y), h => exact bind_le (ih _ _) (fun s r h => bind_le (ih _ _) (fun _ _ h => h) r h) r h
    · unfold braKetRest at h ⊢
      split at h
      · exact bind_le (fun _ h => h) (fun s r h => bind_le (ih _ _) (fun _ _ h => h) r h) r h
      · exact bind_le (fun _ h => h) (fun s r h => bind_le (opKet_le n _ _) (fun _ _ h => ih _ _ _ h) r h) r h
      · exact bind_le (ih _ _) (fun _ _ h => h) r h
      · exact h

theorem ketBra_code (n : ℕ) : ketBra mk.checked n = ketBra mk.code n := by
  induction n with
  | zero => rfl
  | succ n ih =>
    funext a b
    rw [ketBra, ketBra, ih]
    unfold ketBraStep
    rw [decompose_code]
    rfl

theorem eltMul_le (n : ℕ) : Le (eltMul mk.checked n) (eltMul mk.code n) := by
  intro x y r h
  unfold eltMul at h ⊢
  rw [tensorCreate_code, ketBra_code, scalKet_code] at h
  split at h
  · exact h
  · exact h
  · exact bind_le (braKet_le n _ _) (fun _ _ h => h) r h
  · exact h
  · exact bind_le (fun _ h => h) (fun s r h => bind_le (opKet_le n _ _) (fun _ _ h => h) r h) r h
  · exact bind_le (opKet_le n _ _) (fun _ _ h => h) r h
  all_goals exact h

end transfer

/-! ## C58 -/

theorem eltMul_spec (hs : mk.Sound I) (hst : mk.Safe) {n : ℕ} {x y z : Elt ι K} (h : eltMul mk n x y = .ok z) (hx : x.wf d) (hy : y.wf d)
    (hc : x.Compatible y) : z.wf d ∧ Elt.Product I x y z := by
  unfold eltMul at h
  split at h
  · obtain ⟨r, hr, h⟩ := Except.bind_ok h
    injection h with h; subst h
    obtain ⟨h1, h2, _⟩ := tensorCreate_spec hs hr (by simpa using ⟨hx, hy⟩)
    exact ⟨h1, by simpa [Elt.Product] using h2⟩
  · obtain ⟨r, hr, h⟩ := Except.bind_ok h
    injection h with h; subst h
    exact ketBra_spec hs n _ _ _ hr hx hy hc
  · obtain ⟨r, hr, h⟩ := Except.bind_ok h
    injection h with h; subst h
    exact braKet_spec hs hst n _ _ _ hr hx hy hc
  · obtain ⟨r, hr, h⟩ := Except.bind_ok h
    injection h with h; subst h
    obtain ⟨h1, h2, _⟩ := tensorCreate_spec hs hr (by simpa using ⟨hx, hy⟩)
    exact ⟨h1, by simpa [Elt.Product] using h2⟩
  · obtain ⟨A', hA, h⟩ := Except.bind_ok h
    obtain ⟨r, hr, h⟩ := Except.bind_ok h
    injection h with h; subst h
    obtain ⟨a1, a2⟩ := hs.opAdj _ _ hA hy
    obtain ⟨h1, h2, _⟩ := opKet_spec hs hst n _ _ _ hr a1 hx
    exact ⟨h1, by rw [Elt.Product, h2, a2]⟩
  · obtain ⟨r, hr, h⟩ := Except.bind_ok h
    injection h with h; subst h
    obtain ⟨h1, h2, _⟩ := opKet_spec hs hst n _ _ _ hr hx hy
    exact ⟨h1, h2⟩
  · obtain ⟨r, hr, h⟩ := Except.bind_ok h
    injection h with h; subst h
    obtain ⟨h1, h2, _⟩ := scalKet_spec hs n _ _ _ hr hy hx
    exact ⟨h1, h2⟩
  · obtain ⟨r, hr, h⟩ := Except.bind_ok h
    injection h with h; subst h
    obtain ⟨h1, h2, _⟩ := scalKet_spec hs n _ _ _ hr hx hy
    exact ⟨h1, h2⟩
  · obtain ⟨c', hc', h⟩ := Except.bind_ok h
    obtain ⟨r, hr, h⟩ := Except.bind_ok h
    injection h with h; subst h
    obtain ⟨c1, c2⟩ := hs.scConj _ _ hc' hy
    obtain ⟨h1, h2, _⟩ := scalKet_spec hs n _ _ _ hr c1 hx
    exact ⟨h1, by rw [Elt.Product, h2, c2]⟩
  · obtain ⟨c', hc', h⟩ := Except.bind_ok h
    obtain ⟨r, hr, h⟩ := Except.bind_ok h
    injection h with h; subst h
    obtain ⟨c1, c2⟩ := hs.scConj _ _ hc' hx
    obtain ⟨h1, h2, _⟩ := scalKet_spec hs n _ _ _ hr c1 hy
    exact ⟨h1, by rw [Elt.Product, h2, c2]⟩
  all_goals cases h

/-- C58, for all operands (kets, bras, operators and scalars of any size), every evaluation depth and every interpretation: where
the separation of the factors in `act_locally_times_tensor` is permitted, `x * y` is the product of `x` and `y`. What is missing: the code
does not check that, see `C58_refuted`. -/
theorem C58_products_partial (hs : mk.Sound I) {n : ℕ} {x y z : Elt ι K} (h : eltMul mk.checked n x y = .ok z) (hx : x.wf d) (hy : y.wf d)
    (hc : x.Compatible y) : eltMul mk.code n x y = .ok z ∧ z.wf d ∧ Elt.Product I x y z :=
  ⟨eltMul_le n x y z h, eltMul_spec hs.checked (.inl rfl) h hx hy hc⟩

/-- C58: the code itself, if no product of operators is simplified to an operator on a smaller space -/
theorem C58_products_keep_partial (hs : mk.Sound I) (hk : mk.KeepsSpace) {n : ℕ} {x y z : Elt ι K} (h : eltMul mk.code n x y = .ok z)
    (hx : x.wf d) (hy : y.wf d) (hc : x.Compatible y) : z.wf d ∧ Elt.Product I x y z :=
  eltMul_spec hs.code (.inr hk) h hx hy hc

/-- C58 for tensor products, without any reservation -/
theorem C58_tensor (hs : mk.Sound I) {n : ℕ} {a b : Ket ι K} {z : Elt ι K} (h : eltMul mk.code n (.ket a) (.ket b) = .ok z) (ha : a.wf d) (hb : b.wf d) :
    ∃ c : Ket ι K, z = .ket c ∧ c.wf d ∧ c.ev I = a.ev I * b.ev I ∧
      (a.isZero = false → b.isZero = false → c.isZero = false ∧ c.space = a.space ∪ b.space) := by
  obtain ⟨r, hr, h⟩ := Except.bind_ok h
  injection h with h; subst h
  obtain ⟨h1, h2, h3⟩ := tensorCreate_spec hs.code hr (by simpa using ⟨ha, hb⟩)
  refine ⟨r, rfl, h1, by simpa using h2, fun a0 b0 => ?_⟩
  rcases h3 with h3 | h3
  · rcases List.mem_cons.mp h3.1 with hz | hz
    · rw [← hz] at a0; cases a0
    · rw [List.mem_singleton] at hz
      rw [← hz] at b0; cases b0
  · refine ⟨h3.2.1, ?_⟩
    rw [spaceL_of_sum h3.2.2, spaceL, spaceL, spaceL, Finset.union_empty]

/-- C58 for outer products, without any reservation -/
theorem C58_outer (hs : mk.Sound I) {n : ℕ} {a b : Ket ι K} {z : Elt ι K} (h : eltMul mk.code n (.ket a) (.bra b) = .ok z) (ha : a.wf d) (hb : b.wf d)
    (hc : Same a b) : ∃ X : Op ι K, z = .op X ∧ X.wf d ∧ X.ev I = outer a.space (a.ev I) (b.ev I) := by
  obtain ⟨r, hr, h⟩ := Except.bind_ok h
  injection h with h; subst h
  exact ⟨r, rfl, ketBra_spec hs.code n _ _ _ hr ha hb hc⟩

/-- C58 for an operator applied to a ket: where the separation of factors is permitted; the result is zero or a ket of the same space -/
theorem C58_operator_partial (hs : mk.Sound I) {n : ℕ} {A : Op ι K} {a : Ket ι K} {z : Elt ι K}
    (h : eltMul mk.checked n (.op A) (.ket a) = .ok z) (hA : A.wf d) (ha : a.wf d) :
    eltMul mk.code n (.op A) (.ket a) = .ok z ∧
      ∃ c : Ket ι K, z = .ket c ∧ c.wf d ∧ c.ev I = A.ev I *ᵥ a.ev I ∧ (c = .zero ∨ c.space = a.space) := by
  refine ⟨eltMul_le n _ _ _ h, ?_⟩
  obtain ⟨r, hr, h⟩ := Except.bind_ok h
  injection h with h; subst h
  obtain ⟨h1, h2, h3⟩ := opKet_spec hs.checked (.inl rfl) n _ _ _ hr hA ha
  exact ⟨r, rfl, h1, h2, h3.imp id And.right⟩

/-! ## C59 -/

/-- C59: a tensor product of states with a common degree of freedom is refused -/
theorem C59_tensor_overlap (hs : mk.Sound I) {n : ℕ} {a b : Ket ι K} {z : Elt ι K} (h : eltMul mk.code n (.ket a) (.ket b) = .ok z)
    (ha : a.wf d) (hb : b.wf d) (a0 : a.isZero = false) (b0 : b.isZero = false) : Disjoint a.space b.space := by
  obtain ⟨r, hr, h⟩ := Except.bind_ok h
  obtain ⟨h1, h2, h3⟩ := tensorCreate_spec hs.code hr (by simpa using ⟨ha, hb⟩)
  rcases h3 with h3 | h3
  · rcases List.mem_cons.mp h3.1 with hz | hz
    · rw [← hz] at a0; cases a0
    · rw [List.mem_singleton] at hz
      rw [← hz] at b0; cases b0
  · have hn := r.space.nodup
    have e : r.space.val = a.space.val + b.space.val := by rw [h3.2.2]; simp
    rw [e, Multiset.nodup_add] at hn
    exact Finset.disjoint_val.mp hn.2.2

theorem rawKetBra_same {a b : Ket ι K} {X : Op ι K} (h : rawKetBra a b = .ok X) : Same a b := by
  rw [rawKetBra] at h
  split at h
  · rename_i hc; exact sameSpace_cases hc
  · cases h

theorem rawBraKet_same {a b : Ket ι K} {X : Sc ι K} (h : rawBraKet a b = .ok X) : Same a b := by
  rw [rawBraKet] at h
  split at h
  · rename_i hc; exact sameSpace_cases hc
  · cases h

theorem decompose_same (hs : mk.Sound I) {n : ℕ} {a b : List (Ket ι K)} (ha : (Ket.tensor a).wf d) (hb : (Ket.tensor b).wf d)
    {x y : Ket ι K × Ket ι K} (h : decompose mk n a b = .ok (some (x, y))) : Same (.tensor a) (.tensor b) := by
  obtain ⟨spc, hx⟩ := decompose_spec hs ha hb h
  refine .inr (.inr ?_)
  rw [Ket.space, Ket.space, ← hx.left.space, ← hx.right.space, hx.on, hx.off]

theorem ketBra_same (hs : mk.Sound I) : ∀ (n : ℕ) (a b : Ket ι K) (X : Op ι K), ketBra mk n a b = .ok X → a.wf d → b.wf d → Same a b := by
  intro n
  have h0 : ∀ l, (Ket.basis 0 l : Ket ι K).wf d := fun l => by rw [Ket.wf]; exact (I.ref l).pos
  have up : ∀ {a a' b : Ket ι K}, a'.isZero = false → a.space = a'.space → Same a' b → Same a b := by
    intro a a' b hz hsp h
    rcases h with rfl | h | h
    · cases hz
    · exact .inr (.inl h)
    · exact .inr (.inr (hsp.trans h))
  have up' : ∀ {a b b' : Ket ι K}, b'.isZero = false → b.space = b'.space → Same a b' → Same a b := by
    intro a b b' hz hsp h
    rcases h with h | rfl | h
    · exact .inl h
    · cases hz
    · exact .inr (.inr (h.trans hsp.symm))
  induction n with
  | zero => intro a b s h; simp [ketBra] at h
  | succ n ih =>
    intro a b X h ha hb
    rw [ketBra, ketBraStep.eq_def] at h
    split at h
    · split at h
      · rename_i hl
        exact .inr (.inr (by rw [Ket.space, Ket.space, hl]))
      · exact rawKetBra_same h
    · obtain ⟨Y, hY, h⟩ := Except.bind_ok h
      exact up rfl (by rw [Ket.space, Ket.space]) (ih _ _ _ hY (h0 _) hb)
    · obtain ⟨Y, hY, h⟩ := Except.bind_ok h
      exact up' rfl (by rw [Ket.space, Ket.space]) (ih _ _ _ hY ha (h0 _))
    · obtain ⟨o, ho, h⟩ := Except.bind_ok h
      split at h
      · exact decompose_same hs ha hb ho
      · exact rawKetBra_same h
    · unfold ketBraRest at h
      split at h
      · obtain ⟨Y, hY, h⟩ := Except.bind_ok h
        rw [Ket.wf] at ha
        exact up ha.2.2.2 (by rw [Ket.space]) (ih _ _ _ hY ha.2.1 hb)
      · obtain ⟨Y, hY, h⟩ := Except.bind_ok h
        rw [Ket.wf] at hb
        exact up' hb.2.2.2 (by rw [Ket.space]) (ih _ _ _ hY ha hb.2.1)
      · obtain ⟨Y, hY, h⟩ := Except.bind_ok h
        rw [Ket.wf] at ha
        exact up ha.2.2.2 (by rw [Ket.space]) (ih _ _ _ hY ha.2.1 hb)
      · obtain ⟨u, hu, h⟩ := Except.bind_ok h
        obtain ⟨Y, hY, h⟩ := Except.bind_ok h
        rw [Ket.wf] at hb
        exact up' hb.2.2.2 (by rw [Ket.space]) (ih _ _ _ hY ha hb.2.1)
      · exact rawKetBra_same h

/-- C59: an outer product of (non-zero) states of different spaces is refused, for all states -/
theorem C59_outer_unequal (hs : mk.Sound I) {n : ℕ} {a b : Ket ι K} {z : Elt ι K} (h : eltMul mk.code n (.ket a) (.bra b) = .ok z)
    (ha : a.wf d) (hb : b.wf d) (a0 : a.isZero = false) (b0 : b.isZero = false) : a.space = b.space := by
  obtain ⟨r, hr, h⟩ := Except.bind_ok h
  exact (ketBra_same hs.code n a b r hr ha hb).space_eq a0 b0

/-- the ket without scalar factors -/
def Ket.peel : Ket ι K → Ket ι K
  | .scal _ t => t.peel
  | t => t

/-- a basis state -/
def Ket.isBasis : Ket ι K → Bool
  | .basis _ _ => true
  | _ => false

/-- an operator applied to a ket -/
def Ket.isOpKet : Ket ι K → Bool
  | .opKet _ _ => true
  | _ => false

theorem braKet_same (hs : mk.Sound I) : ∀ (n : ℕ) (a b : Ket ι K) (s : Sc ι K), braKet mk n a b = .ok s → a.wf d → b.wf d →
    a.peel.isOpKet = false → (a.peel.isBasis = true → b.peel.isBasis = false) → Same a b := by
  intro n
  induction n with
  | zero => intro a b s h; simp [braKet] at h
  | succ n ih =>
    intro a b X h ha hb hop hba
    rw [braKet, braKetStep.eq_def] at h
    split at h
    · exact .inr (.inl rfl)
    · exact .inl rfl
    · exact absurd (hba rfl) (by simp [Ket.peel, Ket.isBasis])
    · split at h
      · rename_i hc
        exact .inr (.inr (by rw [Ket.space, Ket.space, hc.2]))
      · exact rawBraKet_same h
    · obtain ⟨o, ho, h⟩ := Except.bind_ok h
      split at h
      · exact decompose_same hs ha hb ho
      · exact rawBraKet_same h
    · unfold braKetRest at h
      split at h
      · obtain ⟨u, hu, h⟩ := Except.bind_ok h
        obtain ⟨Y, hY, h⟩ := Except.bind_ok h
        rw [Ket.wf] at ha
        rcases ih _ _ _ hY ha.2.1 hb (by simpa [Ket.peel] using hop) (by simpa [Ket.peel] using hba) with hz | hz | hz
        · rw [hz] at ha; cases ha.2.2.2
        · exact .inr (.inl hz)
        · exact .inr (.inr (by rw [Ket.space, hz]))
      · simp [Ket.peel, Ket.isOpKet] at hop
      · obtain ⟨Y, hY, h⟩ := Except.bind_ok h
        rw [Ket.wf] at hb
        rcases ih _ _ _ hY ha hb.2.1 hop (by simpa [Ket.peel] using hba) with hz | hz | hz
        · exact .inl hz
        · rw [hz] at hb; cases hb.2.2.2
        · exact .inr (.inr (by rw [hz, Ket.space]))
      · exact rawBraKet_same h

/-- C59: an inner product of (non-zero) states of different spaces is refused, unless both are multiples of basis states, for which
it is not (`C59_refuted`). Missing: the left state is not (a multiple of) an operator applied to a ket. -/
theorem C59_inner_unequal_partial (hs : mk.Sound I) {n : ℕ} {a b : Ket ι K} {z : Elt ι K} (h : eltMul mk.code n (.bra a) (.ket b) = .ok z)
    (ha : a.wf d) (hb : b.wf d) (a0 : a.isZero = false) (b0 : b.isZero = false) (hop : a.peel.isOpKet = false)
    (hba : ¬ (a.peel.isBasis = true ∧ b.peel.isBasis = true)) : a.space = b.space := by
  obtain ⟨r, hr, h⟩ := Except.bind_ok h
  exact (braKet_same hs.code n a b r hr ha hb hop fun h => by simpa [h] using hba).space_eq a0 b0

/-! ## C60 -/

/-- C60 for scalar multiples: whenever products of scalars can be formed, a multiple of a ket is obtained in finitely many steps, and the
result does not depend on the recursion limit. Missing: other products; for some of them the claim is false (`C60_*_refuted`). -/
theorem C60_scalar_partial (hm : ∀ u v, ∃ w, mk.scMul u v = .ok w) (c : Sc ι K) (a : Ket ι K) :
    ∃ N z, ∀ n, N ≤ n → eltMul mk.code n (.sc c) (.ket a) = .ok z := by
  have key : ∀ (a : Ket ι K) (c : Sc ι K), ∃ N z, ∀ n, N ≤ n → scalKet mk.code n c a = .ok z := by
    intro a
    have done : ∀ (c : Sc ι K) (t z : Ket ι K), (∀ n, scalRest mk.code (scalKet mk.code n) c t = .ok z) →
        ∃ N z, ∀ n, N ≤ n → scalKet mk.code n c t = .ok z := by
      intro c t z h
      refine ⟨1, if c.isOne then t else if c.isZero then .zero else z, fun n hn => ?_⟩
      obtain ⟨n, rfl⟩ : ∃ m, n = m + 1 := ⟨n - 1, by omega⟩
      rw [scalKet, h]
      split
      · rfl
      · split <;> rfl
    have scal : ∀ (v : Sc ι K) (t : Ket ι K), (∀ c, ∃ N z, ∀ n, N ≤ n → scalKet mk.code n c t = .ok z) →
        ∀ c, ∃ N z, ∀ n, N ≤ n → scalKet mk.code n c (.scal v t) = .ok z := by
      intro v t ih c
      obtain ⟨w, hw⟩ := hm c v
      obtain ⟨N, z, hz⟩ := ih w
      refine ⟨N + 1, if c.isOne then .scal v t else if c.isZero then .zero else z, fun n hn => ?_⟩
      obtain ⟨n, rfl⟩ : ∃ m, n = m + 1 := ⟨n - 1, by omega⟩
      rw [scalKet, scalRest]
      rw [show mk.code.scMul c v = .ok w from hw]
      split
      · rfl
      · split
        · rfl
        · exact hz n (by omega)
    have hrec : ∀ (k : ℕ) (a : Ket ι K), sizeOf a ≤ k → ∀ c, ∃ N z, ∀ n, N ≤ n → scalKet mk.code n c a = .ok z := by
      intro k
      induction k with
      | zero => intro a ha; cases a <;> simp at ha
      | succ k ih =>
        intro a ha c
        match a, ha with
        | .scal v t, ha => exact scal v t (ih t (by simp at ha; omega)) c
        | .zero, _ => exact done c _ .zero fun n => rfl
        | .triv, _ | .sym _ _, _ | .basis _ _, _ | .coh _ _, _ | .plus _, _ | .tensor _, _ | .opKet _ _, _ => exact done c _ (.scal c _) fun n => rfl
    exact hrec _ a le_rfl
  obtain ⟨N, z, h⟩ := key a c
  exact ⟨N, .ket z, fun n hn => by
    show (scalKet mk.code n c a >>= fun r => _) = _
    rw [h n hn]; rfl⟩

end QNET.State
