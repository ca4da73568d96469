import Verif.Trace.Thm
import Mathlib.LinearAlgebra.Matrix.Notation

/-! # C48: partial traces factor correctly — the claims -/

namespace QNET.Trace

open QNET.Perm (Res Err)
open QNET.Indexed (Except.bind_ok mapM_ok_cons mapM_ok_forall₂)
open Matrix

section
variable {ι K : Type} [DecidableEq ι]

theorem factorPlan_strict {l : ι} {A : Op ι K} {p : Plan ι K} (h : factorPlan true l A = .ok p) : factorPlan false l A = .ok p := by
  unfold factorPlan at h ⊢
  split at h
  · rename_i h1
    rw [if_pos h1]
    exact h
  · rename_i h1
    rw [if_neg h1]
    split at h
    · rename_i h2
      rw [if_pos h2]
      exact h
    · rename_i h2
      rw [if_neg h2]
      split at h
      · dsimp only at h ⊢
        obtain ⟨r, hr, h⟩ := Except.bind_ok h
        rw [hr]
        change (if _ then _ else _) = _
        split at h
        · rename_i h3
          rw [if_pos h3]; exact h
        · rename_i h3
          rw [if_neg h3]
          split at h
          · cases h
          · simpa using h
      · exact h

variable [NatCast K]

theorem applyPlan_imp {mk : Mk ι K} {dim : ι → Option ℕ} {r r' : Op ι K → Res (Op ι K)} (hr : ∀ a b, r a = .ok b → r' a = .ok b)
    {l : ι} {A B : Op ι K} {p : Plan ι K} (h : applyPlan mk dim r l A p = .ok B) : applyPlan mk dim r' l A p = .ok B := by
  cases p with
  | cannot => exact h
  | dimTimes => exact h
  | split pull rest =>
    rw [applyPlan] at h ⊢
    obtain ⟨P, hP, h⟩ := Except.bind_ok h
    obtain ⟨R, hR, h⟩ := Except.bind_ok h
    obtain ⟨T, hT, h⟩ := Except.bind_ok h
    rw [hP, hR]
    change (r' R >>= _) = _
    rw [hr _ _ hT]
    exact h

end

section
variable {ι K : Type} [DecidableEq ι] [CommRing K]

/-- where the checks do not stop the model, they make no difference -/
theorem trc_strict {mk : Mk ι K} {dim : ι → Option ℕ} : ∀ (n : ℕ) (H : List ι) (A B : Op ι K),
    trc true mk dim n H A = .ok B → trc false mk dim n H A = .ok B := by
  intro n
  induction n with
  | zero => intro H A B h; cases H <;> simp [trc] at h
  | succ n ih =>
    intro H A B h
    rcases H with _ | ⟨l, H⟩
    · simpa only [trc] using h
    by_cases hI : Irr A
    · rcases H with _ | ⟨l', H⟩
      · rw [trc_local hI] at h ⊢
        split at h
        · exact h
        · obtain ⟨plan, hp, h⟩ := Except.bind_ok h
          rw [factorPlan_strict hp]
          exact applyPlan_imp (fun a b hab => ih _ _ _ hab) h
      · rw [trc_prod hI] at h ⊢
        obtain ⟨C, hC, h⟩ := Except.bind_ok h
        rw [ih _ _ _ hC]
        exact ih _ _ _ h
    · cases A with
      | zero => simpa only [trc] using h
      | one => simpa only [trc] using h
      | plus ts =>
        simp only [trc] at h ⊢
        obtain ⟨rs, hrs, h⟩ := Except.bind_ok h
        have key : ∀ {ts rs : List (Op ι K)}, ts.mapM (trc true mk dim n (l :: H)) = .ok rs → ts.mapM (trc false mk dim n (l :: H)) = .ok rs := by
          intro ts
          induction ts with
          | nil => intro rs h; exact h
          | cons a ts iht =>
            intro rs h
            obtain ⟨b, bs, h1, h2, rfl⟩ := mapM_ok_cons h
            rw [List.mapM_cons, ih _ _ _ h1]
            change (ts.mapM (trc false mk dim n (l :: H)) >>= _) = _
            rw [iht h2]
            rfl
        rw [key hrs]
        exact h
      | adj t =>
        simp only [trc] at h ⊢
        obtain ⟨r, hr, h⟩ := Except.bind_ok h
        rw [ih _ _ _ hr]
        exact h
      | smul c t =>
        simp only [trc] at h ⊢
        obtain ⟨r, hr, h⟩ := Except.bind_ok h
        rw [ih _ _ _ hr]
        exact h
      | _ => exact absurd trivial hI

end

section
variable {ι K : Type} [Fintype ι] [DecidableEq ι] [CommRing K] [StarRing K] {d : ι → ℕ} (I : Interp ι d K)

/-- **C48 (partial).** For every operator `A`, every space `H`, all dimensions and matrices for the symbols: if in the evaluation of
`OperatorTrace.create(A, over_space=H)` every factor that is pulled out acts on other spaces than the factors it is moved
past, and every rotation is safe (the run with `strict`), then the code returns the same expression, and its value is the
partial trace over `H` of the value of `A`.

Missing: the code does not check this, see `C48_refuted_order` and `C48_refuted_rotation`; the constructors for sums, products, scalar multiples and
adjoints are assumed to keep the value; symbolic levels of `LocalSigma`. -/
theorem C48_trace_partial {mk : Mk ι K} (hm : mk.Sound I) {dim : ι → Option ℕ} (hd : ∀ l n, dim l = some n → n = d l)
    (n : ℕ) (H : List ι) (A B : Op ι K) (hH : H.Nodup) (hw : A.wf d) (h : trc true mk dim n H A = .ok B) :
    trc false mk dim n H A = .ok B ∧ B.val I = ptr H.toFinset (A.val I) :=
  ⟨trc_strict n H A B h, (trc_val I hm hd n H A B hH hw h).2⟩

/-! ## operators on single local spaces -/

omit [Fintype ι] [CommRing K] [StarRing K] in
theorem factorPlan_single {l : ι} {A : Op ι K} (h : A.space ⊆ {l}) : factorPlan true l A = factorPlan false l A := by
  unfold factorPlan
  by_cases h1 : A.space = {l}
  · rw [if_pos h1, if_pos h1]
  · rw [if_neg h1, if_neg h1]
    have : l ∉ A.space := fun hl => h1 (Finset.Subset.antisymm h (by simpa using hl))
    rw [if_pos this, if_pos this]

/-- products never act on more spaces than their factors -/
def Mk.TimesSpace (mk : Mk ι K) : Prop := ∀ l t, mk.times l = .ok t → t.space ⊆ spaceL l

omit [Fintype ι] [CommRing K] [StarRing K] in
theorem factorPlan_split_space {strict : Bool} {l : ι} {A : Op ι K} {pull rest : List (Op ι K)}
    (h : factorPlan strict l A = .ok (.split pull rest)) (hs : A.space = {l}) : spaceL rest ⊆ {l} := by
  unfold factorPlan at h
  rw [if_pos hs] at h
  split at h
  · rename_i ops
    dsimp only at h
    split at h
    · cases h
    · simp only [Except.ok.injEq, Plan.split.injEq] at h
      obtain ⟨rfl, rfl⟩ := h
      refine spaceL_subset fun t ht => ?_
      rw [← hs, Op.space]
      exact space_subset_spaceL (List.mem_filter.mp ht).1
  · cases h

omit [Fintype ι] [CommRing K] [StarRing K] in
theorem factorPlan_dim {strict : Bool} {l : ι} {A : Op ι K} (h1 : A.space ≠ {l}) (h2 : l ∉ A.space) :
    factorPlan strict l A = .ok .dimTimes := by
  unfold factorPlan
  rw [if_neg h1, if_pos h2]

omit [Fintype ι] [StarRing K] in
/-- operators on `l` alone: no check of the reordering ever fails -/
theorem trc_single {mk : Mk ι K} (ht : mk.TimesSpace) {dim : ι → Option ℕ} {l : ι} : ∀ (n : ℕ) (A : Op ι K), A.space ⊆ {l} →
    trc true mk dim n [l] A = trc false mk dim n [l] A := by
  intro n
  induction n with
  | zero => intro A _; simp [trc]
  | succ n ih =>
    intro A hA
    by_cases hI : Irr A
    · rw [trc_local hI, trc_local hI, factorPlan_single hA]
      cases localRule l A with
      | some t => rfl
      | none =>
        dsimp only
        cases hp : factorPlan false l A with
        | error e => rfl
        | ok p =>
          change applyPlan _ _ _ _ _ _ = applyPlan _ _ _ _ _ _
          cases p with
          | cannot => rfl
          | dimTimes => rfl
          | split pull rest =>
            simp only [applyPlan]
            cases mk.times pull with
            | error e => rfl
            | ok P =>
              cases hR : mk.times rest with
              | error e => rfl
              | ok R =>
                change (trc true mk dim n [l] R >>= _) = (trc false mk dim n [l] R >>= _)
                rw [ih R]
                refine (ht _ _ hR).trans ?_
                by_cases hs : A.space = {l}
                · exact factorPlan_split_space hp hs
                · rw [factorPlan_dim hs] at hp
                  · cases hp
                  · exact fun hl => hs (Finset.Subset.antisymm hA (by simpa using hl))
    · cases A with
      | zero => simp only [trc]
      | one => simp only [trc]
      | plus ts =>
        simp only [trc]
        have : ∀ ts : List (Op ι K), (∀ t ∈ ts, t.space ⊆ {l}) →
            ts.mapM (trc true mk dim n [l]) = ts.mapM (trc false mk dim n [l]) := by
          intro ts
          induction ts with
          | nil => intro _; rfl
          | cons a ts iht =>
            intro hts
            rw [List.mapM_cons, List.mapM_cons, ih a (hts a (by simp)), iht fun t ht => hts t (by simp [ht])]
        rw [this ts fun t ht => (space_subset_spaceL ht).trans (by rw [Op.space] at hA; exact hA)]
      | adj t => simp only [trc]; rw [ih t (by rw [Op.space] at hA; exact hA)]
      | smul c t => simp only [trc]; rw [ih t (by rw [Op.space] at hA; exact hA)]
      | _ => exact absurd trivial hI

omit [Fintype ι] [CommRing K] [StarRing K] in
theorem rotate_spaces {l : ι} {rest rest' : List (Op ι K)} (h : rotate l rest = .ok rest') (hs : ∀ o ∈ rest, o.space ⊆ {l}) :
    ∀ o ∈ rest', o.space ⊆ {l} := by
  unfold rotate at h
  split at h
  swap
  · cases h
  split at h
  swap
  · cases h; exact hs
  dsimp only at h
  split at h
  swap
  · cases h; exact hs
  rw [Except.ok.injEq] at h
  subst h
  intro o ho
  simp only [List.mem_append, List.mem_singleton] at ho
  rcases ho with (ho | ho) | rfl
  · exact hs o (List.mem_of_mem_drop ho)
  · exact hs o (List.mem_of_mem_take ho)
  · rw [Op.space]

/-- **C48, products of local operators.** For every product of operators that each act on at most one local space, in any order and on any
number of spaces, the trace over a local space `l` that the code returns has the value of the partial trace over `l`: no
hypothesis on the order of the factors is needed. -/
theorem C48_local {mk : Mk ι K} (hm : mk.Sound I) (ht : mk.TimesSpace) {dim : ι → Option ℕ} (hd : ∀ l n, dim l = some n → n = d l)
    (n : ℕ) (l : ι) (ops : List (Op ι K)) (B : Op ι K) (hops : ∀ o ∈ ops, o.space.card ≤ 1) (hw : ∀ o ∈ ops, o.wf d)
    (h : trc false mk dim n [l] (.times ops) = .ok B) : B.val I = ptr {l} ((ops.map (Op.val I)).prod) := by
  have hl : ∀ o ∈ ops, l ∈ o.space → o.space ⊆ {l} := by
    intro o ho hlo
    have := Finset.card_le_one.mp (hops o ho)
    intro i hi
    rw [Finset.mem_singleton]
    exact this i hi l hlo
  have hplan : factorPlan true l (Op.times ops) = factorPlan false l (Op.times ops) := by
    unfold factorPlan
    by_cases h1 : (Op.times ops).space = {l}
    · rw [if_pos h1, if_pos h1]
    rw [if_neg h1, if_neg h1]
    by_cases h2 : l ∉ (Op.times ops).space
    · rw [if_pos h2, if_pos h2]
    rw [if_neg h2, if_neg h2]
    dsimp only
    have hps : PullSafe l ops := by
      refine List.Pairwise.imp_of_mem (R := fun _ _ => True) ?_ (by simp [List.pairwise_iff_getElem])
      intro a b ha _ _ hla hlb
      refine Finset.disjoint_left.mpr fun i hi hib => hlb ?_
      have := hl a ha hla hi
      rw [Finset.mem_singleton] at this
      exact this ▸ hib
    have hrs : RotSafe l (ops.filter fun o => !decide (l ∉ o.space)) := by
      intro a ha b _ i hi hne
      have hmem := List.mem_filter.mp (List.mem_of_mem_take ha)
      have := hl a hmem.1 (by simpa using hmem.2) hi
      exact absurd (Finset.mem_singleton.mp this) hne
    simp only [decide_eq_true hps, decide_eq_true hrs, Bool.and_self, Bool.not_true, Bool.and_false]
  have hstrict : trc true mk dim n [l] (.times ops) = .ok B := by
    cases n with
    | zero => simp [trc] at h
    | succ n =>
      rw [trc_local (A := .times ops) trivial] at h ⊢
      rw [hplan]
      simp only [localRule] at h ⊢
      obtain ⟨p, hp, h⟩ := Except.bind_ok h
      rw [hp]
      change applyPlan _ _ _ _ _ _ = _
      cases p with
      | cannot => exact h
      | dimTimes => exact h
      | split pull rest =>
        rw [applyPlan] at h ⊢
        obtain ⟨P, hP, h⟩ := Except.bind_ok h
        obtain ⟨R, hR, h⟩ := Except.bind_ok h
        obtain ⟨T, hT, h⟩ := Except.bind_ok h
        rw [hP, hR]
        change (trc true mk dim n [l] R >>= _) = _
        rw [trc_single ht n R, hT]
        · exact h
        · refine (ht _ _ hR).trans ?_
          by_cases hs : (Op.times ops).space = {l}
          · exact factorPlan_split_space hp hs
          · unfold factorPlan at hp
            rw [if_neg hs] at hp
            split at hp
            · cases hp
            · dsimp only at hp
              obtain ⟨r, hr, hp⟩ := Except.bind_ok hp
              split at hp
              · cases hp
              · simp only [Bool.false_and, Bool.false_eq_true, if_false, Except.ok.injEq, Plan.split.injEq] at hp
                obtain ⟨_, rfl⟩ := hp
                refine spaceL_subset (rotate_spaces hr fun o ho => ?_)
                have := List.mem_filter.mp ho
                exact hl o this.1 (by simpa using this.2)
  have := (C48_trace_partial I hm hd n [l] _ B (by simp) (by rw [Op.wf, wfL_iff]; exact hw) hstrict).2
  rw [this, Op.val, valL_eq]
  rfl

end

/-! ## The hypotheses can be met -/

section examples

/-- constructors that do not simplify -/
def rawMk {ι K : Type} : Mk ι K where
  times | [t] => .ok t | l => .ok (.times l)
  plus l := .ok (.plus l)
  smul c t := .ok (.smul c t)
  adj t := .ok (.adj t)

theorem rawMk_sound {ι K : Type} [Fintype ι] [DecidableEq ι] [CommRing K] [StarRing K] {d : ι → ℕ} (I : Interp ι d K) :
    (rawMk : Mk ι K).Sound I where
  times l t h hw := by
    simp only [rawMk] at h
    split at h
    · cases h; exact ⟨hw _ (by simp), by simp⟩
    · cases h; exact ⟨by rw [Op.wf, wfL_iff]; exact hw, by rw [Op.val, valL_eq]⟩
  plus l t h hw := by cases h; exact ⟨by rw [Op.wf, wfL_iff]; exact hw, by rw [Op.val, valL_eq]⟩
  smul c o t h hw := by cases h; exact ⟨hw, rfl⟩
  adj o t h hw := by cases h; exact ⟨hw, rfl⟩

theorem rawMk_timesSpace {ι K : Type} [DecidableEq ι] : (rawMk : Mk ι K).TimesSpace := by
  intro l t h
  simp only [rawMk] at h
  split at h
  · cases h; exact space_subset_spaceL (by simp)
  · cases h; rw [Op.space]

theorem actsOn_univ {ι K : Type} [Fintype ι] [DecidableEq ι] [CommRing K] {d : ι → ℕ} (M : Mat d K) : ActsOn Finset.univ M := by
  refine ⟨fun x y i hi => absurd (Finset.mem_univ i) hi, fun x y x' y' h _ _ => ?_⟩
  rw [show x = x' from funext fun i => (h i (Finset.mem_univ i)).1, show y = y' from funext fun i => (h i (Finset.mem_univ i)).2]

/-- three two-level systems -/
abbrev d3 : Fin 3 → ℕ := fun _ => 2

/-- `sym 0 {0, 1}` is |0⟩⟨0| ⊗ X on the systems 0 and 1, `sym 1 {0, 1}` is |0⟩⟨0| ⊗ Z, symbols on the system 1 or 2 are Z -/
def exI : Interp (Fin 3) d3 ℤ where
  sym a s :=
    if a = 0 ∧ s = {0, 1} then embed 0 !![1, 0; 0, 0] * embed 1 !![0, 1; 1, 0]
    else if a = 1 ∧ s = {0, 1} then embed 0 !![1, 0; 0, 0] * embed 1 !![1, 0; 0, -1]
    else if s = {1} then embed 1 !![1, 0; 0, -1]
    else if s = {2} then embed 2 !![1, 0; 0, -1]
    else 0
  acts a s := by
    split
    · rename_i h
      rw [h.2]
      exact ((embed_actsOn 0 _).mono (by decide)).mul ((embed_actsOn 1 _).mono (by decide))
    · split
      · rename_i h
        rw [h.2]
        exact ((embed_actsOn 0 _).mono (by decide)).mul ((embed_actsOn 1 _).mono (by decide))
      · split
        · rename_i h
          rw [h]
          exact embed_actsOn 1 _
        · split
          · rename_i h
            rw [h]
            exact embed_actsOn 2 _
          · exact actsOn_zero _
  sqrt _ := 1

/-- Tr over the spaces 0 and 1 of `a_0 Z_1 σ_01 σ_10 C_2` (operators on three spaces, in mixed order), with the
checks: nothing stops it, so both theorems apply -/
example : (trc true rawMk (fun _ => some 2) 10 [0, 1]
    (.times [.destroy 0, .sym 5 {1}, .sigma 0 1 0, .sigma 1 0 1, .sym 6 {2}] : Op (Fin 3) ℤ)).isOk = true := by decide +kernel

/-- **C48 refuted (order).** `A12` acts on both spaces and `B2` on space 2 only (here: 0 and 1). `Tr_1[A12 B2]` is turned into
`B2 Tr_1[A12]`, but the value of the trace is `Tr_1[A12] B2`: the order of the factors on the remaining space is wrong. -/
theorem C48_refuted_order : ∃ (d : Fin 3 → ℕ) (I : Interp (Fin 3) d ℤ) (A B : Op (Fin 3) ℤ),
    let t : Op (Fin 3) ℤ := .times [B, .trace 0 A]
    A.space = {0, 1} ∧ B.space = {1} ∧ (∀ dim n, trc false rawMk dim (n + 2) [0] (.times [A, B]) = .ok t) ∧
      (Op.val I t) ≠ ptr {0} ((Op.val I A) * (Op.val I B)) := by
  refine ⟨d3, exI, .sym 0 {0, 1}, .sym 7 {1}, rfl, rfl, ?_, ?_⟩
  · intro dim n
    rfl
  · intro h
    have := congrFun (congrFun h (fun _ => 0)) (fun i => if i = 1 then 1 else 0)
    revert this
    decide +kernel

/-- **C48 refuted (rotation).** A factor `C3` on another space makes the code rotate the rest of the product, `A12 σ1 B12`, to
`σ1 B12 A12 σ1'`. The trace over space 1 is not cyclic for factors that act on space 2 as well, and the value changes. -/
theorem C48_refuted_rotation : ∃ (d : Fin 3 → ℕ) (I : Interp (Fin 3) d ℤ) (A B C : Op (Fin 3) ℤ),
    let s : Op (Fin 3) ℤ := .sigma 0 0 0
    let t : Op (Fin 3) ℤ := .times [C, .trace 0 (.times [s, B, A, s])]
    A.space = {0, 1} ∧ B.space = {0, 1} ∧ C.space = {2} ∧ PullSafe 0 [A, s, B, C] ∧
      (∀ dim n, trc false rawMk dim (n + 2) [0] (.times [A, s, B, C]) = .ok t) ∧
      (Op.val I t) ≠ ptr {0} (Op.val I A * Op.val I s * Op.val I B * Op.val I C) := by
  refine ⟨d3, exI, .sym 0 {0, 1}, .sym 1 {0, 1}, .sym 7 {2}, rfl, rfl, rfl, by decide +kernel, ?_, ?_⟩
  · intro dim n
    rfl
  · intro h
    have := congrFun (congrFun h (fun _ => 0)) (fun i => if i = 1 then 1 else 0)
    revert this
    decide +kernel

end examples

end QNET.Trace
