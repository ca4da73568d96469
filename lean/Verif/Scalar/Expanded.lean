import Verif.Scalar.Calc

/-!
# C100: the form of expanded scalars
-/

namespace QNET.Scalar

open QNET.Perm (Res Err)
open QNET.Indexed (Except.bind_ok mapM_ok_cons)

variable {K : Type} [Field K] [DecidableEq K]

/-! ### specification -/

mutual
/-- the scalar is built by sums and products from values, symbols and powers of symbols -/
def SymPow : SX K → Prop
  | .plus l => SymPows l
  | .times l => SymPows l
  | .pow (.sym _) _ => True
  | .pow _ _ => False
  | _ => True
/-- the same for lists -/
def SymPows : List (SX K) → Prop
  | [] => True
  | x :: l => SymPow x ∧ SymPows l
end

/-- a value, a symbol or a power of a symbol -/
def Atom : SX K → Prop
  | .plus _ => False
  | .times _ => False
  | .pow (.sym _) _ => True
  | .pow _ _ => False
  | _ => True

/-- an atom or a product of atoms -/
def Mono : SX K → Prop
  | .times l => ∀ x ∈ l, Atom x
  | x => Atom x

/-- a monomial or a sum of monomials -/
def Poly : SX K → Prop
  | .plus l => ∀ x ∈ l, Mono x
  | x => Mono x

/-! ### proofs -/

theorem symPows_iff (l : List (SX K)) : SymPows l ↔ ∀ x ∈ l, SymPow x := by
  induction l with
  | nil => simp [SymPows]
  | cons x l ih => simp [SymPows, ih]

omit [Field K] [DecidableEq K] in
theorem Atom.mono {x : SX K} (h : Atom x) : Mono x := by
  cases x <;> first | exact h | exact h.elim

omit [Field K] [DecidableEq K] in
theorem Mono.poly {x : SX K} (h : Mono x) : Poly x := by
  cases x with
  | plus l => exact h.elim
  | _ => exact h

omit [Field K] [DecidableEq K] in
theorem Atom.symPow {x : SX K} (h : Atom x) : SymPow x := by
  cases x with
  | plus l => exact h.elim
  | times l => exact h.elim
  | pow b e => cases b <;> first | exact h | trivial
  | _ => trivial

theorem Mono.symPow {x : SX K} (h : Mono x) : SymPow x := by
  cases x with
  | times l => exact (symPows_iff l).2 fun y hy => (h y hy).symPow
  | _ => exact Atom.symPow h

theorem Poly.symPow {x : SX K} (h : Poly x) : SymPow x := by
  cases x with
  | plus l => exact (symPows_iff l).2 fun y hy => (h y hy).symPow
  | _ => exact Mono.symPow h

theorem create_atom (k : K) : Atom (create k) := by
  unfold create
  split
  · trivial
  split <;> trivial

theorem symPowCreate_atom {a : ℕ} {e : ℤ} {r : SX K} (h : powCreate (.sym a) e = .ok r) : Atom r := by
  simp only [powCreate] at h
  split at h
  · cases h; trivial
  split at h <;> cases h <;> trivial

theorem powS_atom {x r : SX K} {e : ℤ} (hx : Atom x) (h : powS x e = .ok r) : Atom r := by
  cases x with
  | plus l => exact hx.elim
  | times l => exact hx.elim
  | zero => simp only [powS] at h; split at h <;> cases h; exact create_atom _
  | one => cases h; trivial
  | val k => simp only [powS, powCreate] at h; split at h <;> cases h; exact create_atom _
  | sym a => exact symPowCreate_atom h
  | pow b e0 => cases b <;> first | exact hx.elim | exact symPowCreate_atom h

theorem Atom.base {b : SX K} {e : ℤ} (h : Atom (.pow b e)) : ∃ a, b = .sym a := by
  cases b <;> first | exact h.elim | exact ⟨_, rfl⟩

theorem binRule_atom {x y r : SX K} (hx : Atom x) (hy : Atom y) (h : binRule x y = .ok (some r)) : Atom r := by
  unfold binRule at h
  split at h
  · cases h; exact create_atom _
  split at h
  · obtain ⟨r', h1, h2⟩ := QNET.Indexed.Except.map_ok h
    cases h2
    exact powS_atom hx h1
  split at h
  · cases h; trivial
  split at h
  · split at h
    · obtain ⟨r', h1, h2⟩ := QNET.Indexed.Except.map_ok h
      cases h2
      obtain ⟨a, rfl⟩ := hx.base
      exact powS_atom (x := .sym a) trivial h1
    split at h
    · cases h; trivial
    · cases h
  · split at h
    · cases h; trivial
    · cases h
  · cases h

/-- atoms, as values in the trivial monoid -/
def AtomV (x : SX K) (_ : Unit) : Prop := Atom x

theorem prod_atom {l : List (SX K)} {m : Unit} : Engine.Prod AtomV l m ↔ ∀ x ∈ l, Atom x := by
  induction l with
  | nil => simp [Engine.prod_nil_iff]
  | cons x l ih =>
    rw [Engine.prod_cons_iff]
    constructor
    · rintro ⟨a, b, h1, h2, _⟩ y hy
      rcases List.mem_cons.1 hy with rfl | hy
      · exact h1
      · exact ih.1 h2 y hy
    · intro h
      exact ⟨(), m, h x (by simp), ih.2 fun y hy => h y (by simp [hy]), rfl⟩

variable {Γ : Ctx K}

theorem timesCreate_mono (hΓ : SortCtx Γ) {ops : List (SX K)} {r : SX K} (ho : ∀ x ∈ ops, Mono x) (h : timesCreate Γ ops = .ok r) : Mono r := by
  have h0 : ∀ x ∈ Engine.assoc flatTimes ops, Atom x := by
    intro x hx
    obtain ⟨y, hy, hx⟩ := List.mem_flatMap.1 hx
    have := ho y hy
    cases y with
    | times l => exact this x hx
    | _ => simp only [flatTimes, Option.getD_none, List.mem_singleton] at hx; subst hx; exact this
  have h1 : ∀ x ∈ Γ.sortTimes (Engine.assoc flatTimes ops), Atom x := fun x hx => h0 x ((hΓ.times _).mem_iff.1 hx)
  unfold timesCreate at h
  generalize hl : Γ.sortTimes (Engine.assoc flatTimes ops) = l at h h1
  clear h0 hl
  have hf := Engine.filterNeutral_sound (V := AtomV (K := K)) (isNeutral := isOne) (ne := .one) (fun _ _ _ _ => rfl) trivial (m := ()) (prod_atom.2 h1)
  split at h
  · rename_i x e
    rw [e] at hf
    cases h
    exact Atom.mono hf
  · rename_i m e
    rw [e] at hf
    obtain ⟨o, h2, rfl⟩ := QNET.Indexed.Except.map_ok h
    have hs : Engine.Sound (AtomV (K := K)) binRule isOne flatTimes := by
      refine ⟨fun x y r _ _ hx hy h => binRule_atom hx hy h, fun _ _ _ _ => rfl, fun r l _ hr hv => ?_⟩
      rw [flatTimes_eq hr] at hv
      exact hv.elim
    have := Engine.matchReplaceBinary_sound hs (ne := .one) trivial (m := ()) hf h2
    cases o with
    | single x => exact Atom.mono this
    | operands k => exact prod_atom.1 this

theorem mul_mono (hΓ : SortCtx Γ) {x y r : SX K} (hx : Mono x) (hy : Mono y) (h : mul Γ x y = .ok r) : Mono r := by
  have h2 : ∀ {r}, timesCreate Γ [x, y] = .ok r → Mono r := fun h => timesCreate_mono hΓ (by simp [hx, hy]) h
  unfold mul at h
  split at h
  · cases h; trivial
  · cases h; exact hy
  · cases h; exact (create_atom _).mono
  · split at h
    · cases h; exact hx
    split at h
    · cases h; trivial
    · exact h2 h

theorem Wrapped.mono {x : SX K} (h : Wrapped x) : Mono x := by
  rcases h.cases with rfl | rfl | ⟨k, rfl⟩ <;> trivial

theorem foldlM_mul_mono (hΓ : SortCtx Γ) : ∀ {l : List (SX K)} {t r : SX K}, Mono t → (∀ x ∈ l, Mono x) → l.foldlM (mul Γ) t = .ok r → Mono r := by
  intro l
  induction l with
  | nil => intro t r ht _ h; cases h; exact ht
  | cons x l ih =>
    intro t r ht hl h
    rw [List.foldlM_cons] at h
    obtain ⟨u, h1, h2⟩ := Except.bind_ok h
    exact ih (mul_mono hΓ ht (hl x (by simp)) h1) (fun y hy => hl y (List.mem_cons_of_mem _ hy)) h2

theorem splitS_mono (hΓ : SortCtx Γ) {x : SX K} {p : SX K × SX K} (hx : Mono x) (h : splitS Γ x = .ok p) : Mono p.1 ∧ Wrapped p.2 := by
  unfold splitS at h
  split at h
  · obtain ⟨t', h1, rfl⟩ := QNET.Indexed.Except.map_ok h
    have hx' : ∀ y ∈ _, Atom y := hx
    exact ⟨foldlM_mul_mono hΓ (hx' _ (by simp)).mono (fun y hy => (hx' y (by simp [hy])).mono) h1, trivial⟩
  · cases h
    exact ⟨hx, trivial⟩

theorem addTerm_mono {m : List (SX K × SX K)} {t c : SX K} (hm : ∀ p ∈ m, Mono p.1 ∧ Wrapped p.2) (ht : Mono t) (hc : Wrapped c) :
    ∀ p ∈ addTerm m t c, Mono p.1 ∧ Wrapped p.2 := by
  induction m with
  | nil => simp [addTerm, ht, hc]
  | cons q m ih =>
    obtain ⟨t', c'⟩ := q
    have h1 := ih (fun p hp => hm p (List.mem_cons_of_mem _ hp))
    have hq := hm (t', c') (by simp)
    unfold addTerm
    split
    · obtain ⟨s, hs⟩ := addVals_some hq.2 hc
      obtain ⟨w, _⟩ := addVals_V (L := K) (ρ := fun _ => 0) hs
      rw [hs, Option.getD_some]
      intro p hp
      rcases List.mem_cons.mp hp with rfl | hp
      · exact ⟨hq.1, w⟩
      · exact hm p (List.mem_cons_of_mem _ hp)
    · intro p hp
      rcases List.mem_cons.mp hp with rfl | hp
      · exact hq
      · exact h1 p hp

theorem collect_mono (hΓ : SortCtx Γ) : ∀ (ops : List (SX K)) (st st' : SX K × List (SX K × SX K)), (∀ x ∈ ops, Mono x) →
    (Wrapped st.1 ∧ ∀ p ∈ st.2, Mono p.1 ∧ Wrapped p.2) → ops.foldlM (collectStep Γ) st = .ok st' →
    Wrapped st'.1 ∧ ∀ p ∈ st'.2, Mono p.1 ∧ Wrapped p.2 := by
  intro ops
  induction ops with
  | nil => intro st st' _ hi h; cases h; exact hi
  | cons x l ih =>
    intro st st' hd hi h
    rw [List.foldlM_cons] at h
    obtain ⟨u, h1, h2⟩ := Except.bind_ok h
    refine ih u st' (fun y hy => hd y (List.mem_cons_of_mem _ hy)) ?_ h2
    have hx := hd x (by simp)
    clear h h2
    unfold collectStep at h1
    split at h1
    · rename_i k
      cases h1
      obtain ⟨s, hs⟩ := addVals_some (y := .val k) hi.1 trivial
      obtain ⟨w, _⟩ := addVals_V (L := K) (ρ := fun _ => 0) hs
      rw [hs, Option.getD_some]
      exact ⟨w, hi.2⟩
    · obtain ⟨p, h0, rfl⟩ := QNET.Indexed.Except.map_ok h1
      obtain ⟨h2, h3⟩ := splitS_mono hΓ hx h0
      exact ⟨hi.1, addTerm_mono hi.2 h2 h3⟩

theorem plusCreate_poly (hΓ : SortCtx Γ) {ops : List (SX K)} {r : SX K} (hd : ∀ x ∈ ops, Poly x) (h : plusCreate Γ ops = .ok r) : Poly r := by
  obtain ⟨st, h1, h'⟩ := Except.bind_ok h
  clear h
  obtain ⟨fops, h2, h⟩ := Except.bind_ok h'
  clear h'
  cases h
  have hf : ∀ x ∈ Engine.assoc flatPlus ops, Mono x := by
    intro x hx
    obtain ⟨y, hy, hx⟩ := List.mem_flatMap.1 hx
    have := hd y hy
    cases y with
    | plus l => exact this x hx
    | _ => simp only [flatPlus, Option.getD_none, List.mem_singleton] at hx; subst hx; exact this
  obtain ⟨w, hi⟩ := collect_mono hΓ _ _ _ (fun x hx => hf x ((hΓ.plus _).mem_iff.mp hx)) (show Wrapped (.zero : SX K) ∧ _ from ⟨trivial, by simp⟩) h1
  have h3 : ∀ x ∈ fops, Mono x := by
    have h4 := QNET.Indexed.mapM_ok_forall₂ h2
    clear h2 h1
    generalize st.2 = m at h4 hi
    induction h4 with
    | nil => simp
    | @cons p x m fops hp _ ih =>
      intro y hy
      have hp5 := hi p (by simp)
      rcases List.mem_cons.mp hy with rfl | hy
      · exact mul_mono hΓ hp5.2.mono hp5.1 hp
      · exact ih (fun q hq => hi q (List.mem_cons_of_mem _ hq)) y hy
  have h5 : ∀ x ∈ (if isZero st.1 then [] else [st.1]) ++ fops.filter (fun op => !isZero op), Mono x := by
    intro x hx
    rcases List.mem_append.mp hx with hx | hx
    · split at hx
      · cases hx
      · rw [List.mem_singleton] at hx; subst hx; exact w.mono
    · exact h3 x (List.mem_filter.mp hx).1
  generalize (if isZero st.1 then [] else [st.1]) ++ fops.filter (fun op => !isZero op) = l at h5
  match l, h5 with
  | [], _ => trivial
  | [x], h5 => exact (h5 x (by simp)).poly
  | x :: y :: l, h5 => exact h5

theorem mapM_P {α : Type} {f : α → Res (SX K)} {R : SX K → Prop} : ∀ {l : List α} {r : List (SX K)},
    (∀ x ∈ l, ∀ y, f x = .ok y → R y) → l.mapM f = .ok r → ∀ y ∈ r, R y
  | [], r, _, h => by cases h; simp
  | x :: l, r, hf, h => by
    obtain ⟨y, r', h1, h2, rfl⟩ := mapM_ok_cons h
    have := mapM_P (fun x hx => hf x (by simp [hx])) h2
    intro z hz
    rcases List.mem_cons.1 hz with rfl | hz
    · exact hf x (by simp) _ h1
    · exact this z hz

theorem getSummands_mono (Δ : CalcCtx K) {x : SX K} (hx : Poly x) : ∀ y ∈ getSummands Δ x, Mono y := by
  unfold getSummands
  split
  · exact hx
  · split
    · intro y hy
      obtain ⟨j, _, rfl⟩ := List.mem_map.1 hy
      exact (create_atom j).mono
    · intro y hy
      rw [List.mem_singleton] at hy
      subst hy
      trivial
  · rename_i h1 _
    intro y hy
    rw [List.mem_singleton] at hy
    subst hy
    cases y with
    | plus l => exact (h1 l rfl).elim
    | _ => exact hx

theorem cartesian_mono : ∀ {ls : List (List (SX K))}, (∀ l ∈ ls, ∀ x ∈ l, Mono x) → ∀ c ∈ cartesian ls, ∀ x ∈ c, Mono x
  | [], _ => by simp [cartesian]
  | l :: ls, h => by
    have h1 := cartesian_mono (ls := ls) (fun m hm => h m (by simp [hm]))
    intro c hc x hx
    simp only [cartesian, List.mem_flatMap, List.mem_map] at hc
    obtain ⟨y, hy, c', hc', rfl⟩ := hc
    rcases List.mem_cons.1 hx with rfl | hx
    · exact h l (by simp) _ hy
    · exact h1 c' hc' x hx

theorem symPow_atom {b : SX K} {e : ℤ} (h : SymPow (.pow b e)) : Atom (.pow b e) := by
  cases b <;> first | exact h.elim | trivial

/-- C100: `expand()` of a scalar built by sums and products from values, symbols and powers of symbols returns a sum of products of values,
symbols and powers of symbols. -/
theorem C100_expanded_partial (hΓ : SortCtx Γ) (Δ : CalcCtx K) : ∀ (n : ℕ) (x r : SX K), SymPow x → expand Γ Δ n x = .ok r → Poly r := by
  intro n
  induction n with
  | zero => intro x r _ h; cases h
  | succ n ih =>
    intro x r hx h
    cases x with
    | times l =>
      rw [SymPow, symPows_iff] at hx
      obtain ⟨eops, h1, h⟩ := Except.bind_ok h
      obtain ⟨ss, h2, h⟩ := Except.bind_ok h
      obtain ⟨ret, h3, h⟩ := Except.bind_ok h
      have d1 := mapM_P (R := Poly) (fun x hx' y hy => ih x y (hx x hx') hy) h1
      have d2 := cartesian_mono (ls := eops.map (getSummands Δ)) (fun m hm y hy => by
        obtain ⟨x, hx, rfl⟩ := List.mem_map.1 hm
        exact getSummands_mono Δ (d1 x hx) y hy)
      have d3 := mapM_P (R := Mono) (fun c hc y hy => timesCreate_mono hΓ (d2 c hc) hy) h2
      have hr := plusCreate_poly hΓ (fun x hx => (d3 x hx).poly) h3
      split at h
      · exact ih _ r hr.symPow h
      · cases h
        exact hr
    | plus l =>
      rw [SymPow, symPows_iff] at hx
      obtain ⟨es, h1, h2⟩ := Except.bind_ok h
      exact plusCreate_poly hΓ (mapM_P (R := Poly) (fun x hx' y hy => ih x y (hx x hx') hy) h1) h2
    | zero => cases h; trivial
    | one => cases h; trivial
    | val k => cases h; trivial
    | sym a => cases h; trivial
    | pow b e => cases h; exact (symPow_atom hx).mono.poly

/-- the hypotheses are met by `y (x + 2)`, whose expansion is not a product -/
example : SymPow (.times [.sym 2, .plus [.pow (.sym 0) 2, .val 2]] : SX ℚ) := by simp [SymPow, SymPows]

end QNET.Scalar
