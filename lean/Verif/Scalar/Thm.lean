import Verif.Scalar.Model
import Verif.Engine.Lemmas
import Verif.Indexed.Sem
import Verif.Util.KernelRfl
import Mathlib.Algebra.Algebra.Basic
import Mathlib.Algebra.BigOperators.Group.List.Basic
import Mathlib.Data.Rat.Cast.CharZero
import Mathlib.Tactic.FieldSimp

/-! # C35: scalar arithmetic denotes the arithmetic of values -/

namespace QNET.Scalar

open QNET.Perm (Res Err)
open QNET.Indexed (Except.bind_ok mapM_ok_cons mapM_ok_forall₂)

variable {K : Type} [Field K] [DecidableEq K] {L : Type} [Field L] [Algebra K L] (ρ : ℕ → L)

mutual
/-- the value of a scalar in a field, for given values of the symbols -/
def sval : SX K → L
  | .zero => 0
  | .one => 1
  | .val k => algebraMap K L k
  | .sym a => ρ a
  | .plus l => (svals l).sum
  | .times l => (svals l).prod
  | .pow b e => sval b ^ e
/-- values of a list -/
def svals : List (SX K) → List L
  | [] => []
  | x :: l => sval x :: svals l
end

mutual
/-- the expression is defined: no division by zero -/
def Def : SX K → Prop
  | .plus l => Defs l
  | .times l => Defs l
  | .pow b e => Def b ∧ (e < 0 → sval ρ b ≠ 0)
  | _ => True
/-- all elements are defined -/
def Defs : List (SX K) → Prop
  | [] => True
  | x :: l => Def x ∧ Defs l
end

omit [DecidableEq K] in
theorem svals_map (l : List (SX K)) : svals ρ l = l.map (sval ρ) := by
  induction l with
  | nil => simp [svals]
  | cons x l ih => simp [svals, ih]

omit [DecidableEq K] in
theorem defs_iff (l : List (SX K)) : Defs ρ l ↔ ∀ x ∈ l, Def ρ x := by
  induction l with
  | nil => simp [Defs]
  | cons x l ih => simp [Defs, ih]

/-- `x` is defined and has the value `a` -/
def V (x : SX K) (a : L) : Prop := Def ρ x ∧ sval ρ x = a

variable {ρ}

omit [DecidableEq K] in
theorem V.refl {x : SX K} (h : Def ρ x) : V ρ x (sval ρ x) := ⟨h, rfl⟩

theorem create_V (k : K) : V ρ (create k) (algebraMap K L k) := by
  unfold create
  split
  · rename_i h; subst h; simp [V, Def, sval]
  · split
    · rename_i h; subst h; simp [V, Def, sval]
    · simp [V, Def, sval]

theorem isZero_val {x : SX K} (h : isZero x = true) : sval ρ x = 0 := by
  cases x <;> simp [isZero] at h <;> simp [sval, h]

theorem isOne_val {x : SX K} (h : isOne x = true) : sval ρ x = 1 := by
  cases x <;> simp [isOne] at h <;> simp [sval, h]

theorem scEq_val {x y : SX K} (h : scEq x y = true) : sval ρ x = sval ρ y := by
  unfold scEq at h
  simp only [Bool.or_eq_true, Bool.and_eq_true, decide_eq_true_eq] at h
  rcases h with (h | h) | h
  · rw [h]
  · rw [isZero_val h.1, isZero_val h.2]
  · rw [isOne_val h.1, isOne_val h.2]

theorem zero_pow_V {e : ℤ} {r : SX K} (h : (if e < 0 then (Except.error Err.other : Res (SX K)) else .ok (create ((0 : K) ^ e))) = .ok r) :
    V ρ r ((0 : L) ^ e) := by
  split at h
  · cases h
  · cases h
    have := create_V (ρ := ρ) ((0 : K) ^ e)
    rwa [map_zpow₀, map_zero] at this

theorem powCreate_V : ∀ (x : SX K) (e : ℤ) (r : SX K), Def ρ x → (e < 0 → sval ρ x ≠ 0) → powCreate x e = .ok r → V ρ r (sval ρ x ^ e) := by
  have gen : ∀ (x : SX K) (e : ℤ) (r : SX K), Def ρ x → (e < 0 → sval ρ x ≠ 0) →
      (if e = 0 then (Except.ok SX.one : Res (SX K)) else if e = 1 then .ok x else .ok (.pow x e)) = .ok r → V ρ r (sval ρ x ^ e) := by
    intro x e r hx he h
    split at h
    · rename_i h0; cases h; simp [V, Def, sval, h0]
    split at h
    · rename_i h1; cases h; simp [V, hx, h1]
    · cases h; exact ⟨by simp only [Def]; exact ⟨hx, he⟩, by simp [sval]⟩
  intro x
  induction x using SX.rec (motive_2 := fun _ => True) with
  | val k =>
    intro e r _ _ h
    unfold powCreate at h
    split at h
    · cases h
    · cases h
      have := create_V (ρ := ρ) (k ^ e)
      rwa [map_zpow₀] at this
  | pow x y ih =>
    intro z r hx hz h
    simp only [Def] at hx
    unfold powCreate at h
    split at h
    · rename_i h0; cases h; simp [V, Def, sval, h0]
    split at h
    · rename_i h0; cases h; exact ⟨by simpa only [Def] using hx, by simp [h0]⟩
    rename_i hz0 _
    have hyz : y * z < 0 → sval ρ x ≠ 0 := by
      intro hneg h0
      rcases lt_trichotomy y 0 with hy | hy | hy
      · exact hx.2 hy h0
      · rw [hy] at hneg; simp at hneg
      · have hz' : z < 0 := by
          by_contra hc
          exact absurd hneg (not_lt.mpr (mul_nonneg hy.le (not_lt.mp hc)))
        apply hz hz'
        rw [sval, h0, zero_zpow _ hy.ne']
    rw [sval, ← zpow_mul]
    split at h
    · simpa [sval] using zero_pow_V h
    · cases h; simp [V, Def, sval]
    · exact ih _ _ hx.1 hyz h
  | zero => intro e r hx he h; rw [powCreate] at h <;> first | exact gen _ _ _ hx he h | (intros; simp_all)
  | one => intro e r hx he h; rw [powCreate] at h <;> first | exact gen _ _ _ hx he h | (intros; simp_all)
  | sym a => intro e r hx he h; rw [powCreate] at h <;> first | exact gen _ _ _ hx he h | (intros; simp_all)
  | plus l _ => intro e r hx he h; rw [powCreate] at h <;> first | exact gen _ _ _ hx he h | (intros; simp_all)
  | times l _ => intro e r hx he h; rw [powCreate] at h <;> first | exact gen _ _ _ hx he h | (intros; simp_all)
  | nil => trivial
  | cons _ _ _ _ => trivial

theorem powS_V {x : SX K} {e : ℤ} {r : SX K} (hx : Def ρ x) (he : e < 0 → sval ρ x ≠ 0) (h : powS x e = .ok r) : V ρ r (sval ρ x ^ e) := by
  unfold powS at h
  split at h
  · simpa [sval] using zero_pow_V h
  · cases h; simp [V, Def, sval]
  · rename_i b e0
    simp only [Def] at hx
    rw [sval, ← zpow_mul]
    refine powCreate_V _ _ _ hx.1 ?_ h
    intro hneg h0
    rcases lt_trichotomy e0 0 with hy | hy | hy
    · exact hx.2 hy h0
    · rw [hy] at hneg; simp at hneg
    · have hz' : e < 0 := by
        by_contra hc
        exact absurd hneg (not_lt.mpr (mul_nonneg hy.le (not_lt.mp hc)))
      apply he hz'
      rw [sval, h0, zero_zpow _ hy.ne']
  · exact powCreate_V _ _ _ hx he h

theorem powMul_V {b r : SX K} {e f : ℤ} (dx : Def ρ (.pow b e)) (dy : Def ρ (.pow b f)) (h : powS b (e + f) = .ok r) :
    V ρ r (sval ρ (.pow b e) * sval ρ (.pow b f)) := by
  simp only [Def] at dx dy
  have := powS_V dx.1 (e := e + f) (fun hneg => ?_) h
  · rw [sval, sval, ← zpow_add']
    · exact this
    · by_cases h0 : sval ρ b = 0
      · have he : 0 ≤ e := not_lt.mp (fun he => dx.2 he h0)
        have hf : 0 ≤ f := not_lt.mp (fun hf => dy.2 hf h0)
        right
        by_cases hs : e + f = 0
        · right; omega
        · left; exact hs
      · exact .inl h0
  · rcases lt_or_ge e 0 with he | he
    · exact dx.2 he
    · exact dy.2 (by omega)

theorem inv_V {x c : SX K} {f : ℤ} (dy : Def ρ (.pow c f)) (h : f = -1 ∧ x = c) : V ρ (.one : SX K) (sval ρ x * sval ρ (.pow c f)) := by
  obtain ⟨rfl, rfl⟩ := h
  simp only [Def] at dy
  have h0 := dy.2 (by norm_num)
  refine ⟨by simp [Def], ?_⟩
  rw [sval, sval, zpow_neg_one, mul_inv_cancel₀ h0]

theorem binRule_V {x y r : SX K} {a b : L} (hx : V ρ x a) (hy : V ρ y b) (h : binRule x y = .ok (some r)) : V ρ r (a * b) := by
  obtain ⟨dx, rfl⟩ := hx
  obtain ⟨dy, rfl⟩ := hy
  unfold binRule at h
  split at h
  · cases h
    have := create_V (ρ := ρ) (K := K) (L := L)
    simp only [sval, ← map_mul]
    exact this _
  split at h
  · rename_i hxy
    obtain ⟨r', h1, h2⟩ := QNET.Indexed.Except.map_ok h
    cases h2
    have := powS_V dx (by simp) h1
    rw [zpow_ofNat, pow_two] at this
    rwa [← scEq_val hxy]
  split at h
  · rename_i hz
    cases h
    rcases Bool.or_eq_true_iff.mp hz with hz | hz <;> simp [V, Def, sval, isZero_val hz]
  split at h
  · rename_i b e c f _ _ _
    split at h
    · rename_i hbc
      subst hbc
      obtain ⟨r', h1, h2⟩ := QNET.Indexed.Except.map_ok h
      cases h2
      exact powMul_V dx dy h1
    split at h
    · rename_i hf
      cases h
      exact inv_V dy hf
    · cases h
  · split at h
    · rename_i hf
      cases h
      exact inv_V dy hf
    · cases h
  · cases h

/-! ## Products -/

variable {Γ : Ctx K}

/-- sorting only re-orders -/
structure SortCtx (Γ : Ctx K) : Prop where
  plus : ∀ l, (Γ.sortPlus l).Perm l
  times : ∀ l, (Γ.sortTimes l).Perm l

theorem prodV_iff {l : List (SX K)} {a : L} : Engine.Prod (V ρ) l a ↔ (∀ x ∈ l, Def ρ x) ∧ (l.map (sval ρ)).prod = a := by
  constructor
  · rintro ⟨ms, h, rfl⟩
    induction h with
    | nil => simp
    | cons h1 _ ih =>
      obtain ⟨h2, h3⟩ := ih
      refine ⟨fun x hx => ?_, by simp [h1.2, h3]⟩
      rcases List.mem_cons.mp hx with rfl | hx
      · exact h1.1
      · exact h2 x hx
  · rintro ⟨h1, rfl⟩
    refine ⟨l.map (sval ρ), ?_, rfl⟩
    rw [List.forall₂_map_right_iff]
    exact List.forall₂_same.mpr (fun x hx => ⟨h1 x hx, rfl⟩)

theorem flatTimes_eq {r : SX K} {l : List (SX K)} (h : flatTimes r = some l) : r = .times l := by
  cases r <;> simp [flatTimes] at h
  rw [h]

theorem times_V_iff {l : List (SX K)} {a : L} : V ρ (.times l) a ↔ Engine.Prod (V ρ) l a := by
  rw [prodV_iff, V, Def, sval, defs_iff, svals_map]

theorem timesCreate_V (hΓ : SortCtx Γ) {ops : List (SX K)} {r : SX K} (hd : ∀ x ∈ ops, Def ρ x) (h : timesCreate Γ ops = .ok r) :
    V ρ r (ops.map (sval ρ)).prod := by
  have hs : Engine.Sound (V (K := K) ρ) (binRule (K := K)) (isOne (K := K)) (flatTimes (K := K)) :=
    ⟨fun x y r a b hx hy hr => binRule_V hx hy hr, fun r a hn ha => by rw [← ha.2, isOne_val hn],
     fun r l a hl ha => by rw [flatTimes_eq hl, times_V_iff] at ha; exact ha⟩
  have h1V : V ρ (.one : SX K) 1 := ⟨by simp [Def], by simp [sval]⟩
  have h1 := prodV_iff.mp (Engine.prod_assoc hs.flat (prodV_iff.mpr ⟨hd, rfl⟩))
  have h3 : Engine.Prod (V ρ) (Γ.sortTimes (Engine.assoc flatTimes ops)) (ops.map (sval ρ)).prod := by
    rw [prodV_iff]
    refine ⟨fun x hx => h1.1 x ((hΓ.times _).mem_iff.mp hx), ?_⟩
    rw [((hΓ.times _).map _).prod_eq]; exact h1.2
  have h4 := Engine.filterNeutral_sound hs.neutral h1V h3
  unfold timesCreate at h
  cases e : Engine.filterNeutral SX.one isOne (Γ.sortTimes (Engine.assoc flatTimes ops)) with
  | single x =>
    rw [e] at h h4
    cases h
    exact h4
  | operands l =>
    rw [e] at h h4
    simp only at h
    obtain ⟨o, h5, h6⟩ := QNET.Indexed.Except.map_ok h
    have h7 := Engine.matchReplaceBinary_sound hs h1V h4 h5
    cases o with
    | single x => cases h6; exact h7
    | operands l' => cases h6; exact times_V_iff.mpr h7

theorem timesCreate2_V (hΓ : SortCtx Γ) {x y r : SX K} (hx : Def ρ x) (hy : Def ρ y) (h : timesCreate Γ [x, y] = .ok r) :
    V ρ r (sval ρ x * sval ρ y) := by
  have := timesCreate_V (ρ := ρ) hΓ (ops := [x, y]) (by simp [hx, hy]) h
  simpa using this

theorem mul_V (hΓ : SortCtx Γ) {x y r : SX K} (hx : Def ρ x) (hy : Def ρ y) (h : mul Γ x y = .ok r) : V ρ r (sval ρ x * sval ρ y) := by
  unfold mul at h
  split at h
  · cases h; simp [V, Def, sval]
  · cases h; simp [V, sval, hy]
  · cases h; simp only [sval, ← map_mul]; exact create_V _
  · split at h
    · rename_i h1; cases h; simp [V, hx, isOne_val h1]
    split at h
    · rename_i h1; cases h; simp [V, Def, sval, isZero_val h1]
    · exact timesCreate2_V hΓ hx hy h

theorem neg_V (hΓ : SortCtx Γ) {x r : SX K} (hx : Def ρ x) (h : neg Γ x = .ok r) : V ρ r (- sval ρ x) := by
  unfold neg at h
  split at h
  · cases h; simp [V, Def, sval]
  · cases h; simp [V, Def, sval]
  · cases h; simp only [sval, ← map_neg]; exact create_V _
  · have h1 := create_V (ρ := ρ) (-1 : K)
    have := timesCreate2_V hΓ h1.1 hx h
    rw [h1.2] at this
    simpa using this

theorem minus_V (hΓ : SortCtx Γ) {x r : SX K} (hx : Def ρ x) (h : minus Γ x = .ok r) : V ρ r (- sval ρ x) := by
  unfold minus at h
  split at h
  · cases h; simp [V, Def, sval]
  · cases h; have := create_V (ρ := ρ) (-1 : K); simpa [sval] using this
  · cases h; rename_i k; have := create_V (ρ := ρ) (-1 * k); simpa [sval] using this
  · have h1 := create_V (ρ := ρ) (-1 : K)
    have := timesCreate2_V hΓ h1.1 hx h
    rw [h1.2] at this
    simpa using this

/-! ## Sums -/

/-- `Zero`, `One` or a wrapped number -/
def Wrapped : SX K → Prop
  | .zero => True
  | .one => True
  | .val _ => True
  | _ => False

omit [Field K] [DecidableEq K] [Field L] [Algebra K L] in
theorem Wrapped.cases {x : SX K} (h : Wrapped x) : x = .zero ∨ x = .one ∨ ∃ k, x = .val k := by
  cases x <;> simp [Wrapped] at h <;> simp

theorem create_wrapped (k : K) : Wrapped (create k) := by
  unfold create
  split
  · trivial
  · split <;> trivial

theorem wrapped_def {x : SX K} (h : Wrapped x) : Def ρ x := by
  rcases h.cases with rfl | rfl | ⟨k, rfl⟩ <;> simp [Def]

theorem addVals_V {x y r : SX K} (h : addVals x y = some r) : Wrapped r ∧ V ρ r (sval ρ x + sval ρ y) := by
  have hc : ∀ k : K, Wrapped (create k) ∧ V ρ (create k) (algebraMap K L k) := fun k => ⟨create_wrapped k, create_V k⟩
  unfold addVals at h
  split at h <;> first
    | (cases h; simpa only [sval, ← map_add, ← map_one (algebraMap K L), add_zero, zero_add] using hc _)
    | (cases h; refine ⟨trivial, by simp [Def], ?_⟩; simp [sval]; try (rw [map_ofNat]; norm_num))
    | cases h

theorem addVals_some {x y : SX K} (hx : Wrapped x) (hy : Wrapped y) : ∃ r, addVals x y = some r := by
  rcases hx.cases with rfl | rfl | ⟨k, rfl⟩ <;> rcases hy.cases with rfl | rfl | ⟨k, rfl⟩ <;> exact ⟨_, rfl⟩

/-- the state of the loop in `collect_scalar_summands` -/
structure Inv (st : SX K × List (SX K × SX K)) (total : L) : Prop where
  a0 : Wrapped st.1
  terms : ∀ p ∈ st.2, Def ρ p.1 ∧ Wrapped p.2
  sum : sval ρ st.1 + (st.2.map (fun p => sval ρ p.2 * sval ρ p.1)).sum = total

theorem addTerm_V {m : List (SX K × SX K)} {t c : SX K} (hm : ∀ p ∈ m, Def ρ p.1 ∧ Wrapped p.2) (ht : Def ρ t) (hc : Wrapped c) :
    (∀ p ∈ addTerm m t c, Def ρ p.1 ∧ Wrapped p.2) ∧
    ((addTerm m t c).map (fun p => sval ρ p.2 * sval ρ p.1)).sum = (m.map (fun p => sval ρ p.2 * sval ρ p.1)).sum + sval ρ c * sval ρ t := by
  induction m with
  | nil => simp [addTerm, ht, hc]
  | cons q m ih =>
    obtain ⟨t', c'⟩ := q
    obtain ⟨h1, h2⟩ := ih (fun p hp => hm p (List.mem_cons_of_mem _ hp))
    have hq := hm (t', c') (by simp)
    unfold addTerm
    split
    · rename_i he
      obtain ⟨s, hs⟩ := addVals_some hq.2 hc
      obtain ⟨w, hv⟩ := addVals_V (ρ := ρ) hs
      rw [hs, Option.getD_some]
      refine ⟨fun p hp => ?_, ?_⟩
      · rcases List.mem_cons.mp hp with rfl | hp
        · exact ⟨hq.1, w⟩
        · exact hm p (List.mem_cons_of_mem _ hp)
      · simp only [List.map_cons, List.sum_cons, hv.2, scEq_val he]
        ring
    · refine ⟨fun p hp => ?_, ?_⟩
      · rcases List.mem_cons.mp hp with rfl | hp
        · exact hq
        · exact h1 p hp
      · simp only [List.map_cons, List.sum_cons, h2, add_assoc]

theorem foldlM_mul_V (hΓ : SortCtx Γ) : ∀ {l : List (SX K)} {t r : SX K}, Def ρ t → (∀ x ∈ l, Def ρ x) → l.foldlM (mul Γ) t = .ok r →
    V ρ r (sval ρ t * (l.map (sval ρ)).prod) := by
  intro l
  induction l with
  | nil => intro t r ht _ h; cases h; simp [V, ht]
  | cons x l ih =>
    intro t r ht hl h
    rw [List.foldlM_cons] at h
    obtain ⟨u, h1, h2⟩ := Except.bind_ok h
    have hu := mul_V hΓ ht (hl x (by simp)) h1
    have := ih hu.1 (fun y hy => hl y (List.mem_cons_of_mem _ hy)) h2
    rw [hu.2] at this
    simpa [mul_assoc] using this

theorem splitS_V (hΓ : SortCtx Γ) {x : SX K} {p : SX K × SX K} (hx : Def ρ x) (h : splitS Γ x = .ok p) :
    Def ρ p.1 ∧ Wrapped p.2 ∧ sval ρ p.2 * sval ρ p.1 = sval ρ x := by
  unfold splitS at h
  split at h
  · obtain ⟨t', h1, rfl⟩ := QNET.Indexed.Except.map_ok h
    rw [Def, defs_iff] at hx
    have := foldlM_mul_V hΓ (hx _ (by simp)) (fun y hy => hx y (by simp [hy])) h1
    refine ⟨this.1, trivial, ?_⟩
    rw [this.2]
    simp [sval, svals_map, svals]
  · cases h
    exact ⟨hx, trivial, by simp [sval]⟩

theorem collectStep_V (hΓ : SortCtx Γ) {st st' : SX K × List (SX K × SX K)} {op : SX K} {total : L} (hd : Def ρ op)
    (hst : Inv (ρ := ρ) st total) (h : collectStep Γ st op = .ok st') : Inv (ρ := ρ) st' (total + sval ρ op) := by
  unfold collectStep at h
  split at h
  · rename_i k
    cases h
    obtain ⟨s, hs⟩ := addVals_some (y := .val k) hst.a0 trivial
    obtain ⟨w, hv⟩ := addVals_V (ρ := ρ) hs
    rw [hs, Option.getD_some]
    refine ⟨w, hst.terms, ?_⟩
    simp only [hv.2, ← hst.sum]
    ring
  · obtain ⟨p, h1, rfl⟩ := QNET.Indexed.Except.map_ok h
    obtain ⟨h2, h3, h4⟩ := splitS_V hΓ hd h1
    obtain ⟨h5, h6⟩ := addTerm_V hst.terms h2 h3
    refine ⟨hst.a0, h5, ?_⟩
    simp only [h6, h4, ← hst.sum]
    ring

theorem collect_V (hΓ : SortCtx Γ) : ∀ (ops : List (SX K)) (st st' : SX K × List (SX K × SX K)) (total : L), (∀ x ∈ ops, Def ρ x) →
    Inv (ρ := ρ) st total → ops.foldlM (collectStep Γ) st = .ok st' → Inv (ρ := ρ) st' (total + (ops.map (sval ρ)).sum) := by
  intro ops
  induction ops with
  | nil => intro st st' total _ hi h; cases h; simpa using hi
  | cons x l ih =>
    intro st st' total hd hi h
    rw [List.foldlM_cons] at h
    obtain ⟨u, h1, h2⟩ := Except.bind_ok h
    have := ih u st' _ (fun y hy => hd y (List.mem_cons_of_mem _ hy)) (collectStep_V hΓ (hd x (by simp)) hi h1) h2
    simpa [add_assoc] using this

theorem wrapPlus_V {l : List (SX K)} (h : ∀ x ∈ l, Def ρ x) : V ρ (wrapPlus l) (l.map (sval ρ)).sum := by
  match l, h with
  | [], _ => simp [wrapPlus, V, Def, sval]
  | [x], h => simpa [wrapPlus, V] using h x (by simp)
  | x :: y :: l, h =>
    refine ⟨?_, ?_⟩
    · show Def ρ (.plus _)
      rw [Def, defs_iff]; exact h
    · show sval ρ (.plus _) = _
      rw [sval, svals_map]

theorem flatPlus_def {ops : List (SX K)} (hd : ∀ x ∈ ops, Def ρ x) : (∀ x ∈ Engine.assoc flatPlus ops, Def ρ x) ∧
    ((Engine.assoc flatPlus ops).map (sval ρ)).sum = (ops.map (sval ρ)).sum := by
  induction ops with
  | nil => simp [Engine.assoc]
  | cons x l ih =>
    obtain ⟨h1, h2⟩ := ih (fun y hy => hd y (List.mem_cons_of_mem _ hy))
    have hx := hd x (by simp)
    unfold Engine.assoc at h1 h2 ⊢
    rw [List.flatMap_cons]
    refine ⟨fun y hy => ?_, ?_⟩
    · rcases List.mem_append.mp hy with hy | hy
      · cases x with
        | plus m => rw [Def, defs_iff] at hx; exact hx y hy
        | _ => simp only [flatPlus, Option.getD_none, List.mem_singleton] at hy; subst hy; exact hx
      · exact h1 y hy
    · rw [List.map_append, List.sum_append, h2, List.map_cons, List.sum_cons]
      congr 1
      cases x <;> simp [flatPlus, sval, svals_map]

theorem plusCreate_V (hΓ : SortCtx Γ) {ops : List (SX K)} {r : SX K} (hd : ∀ x ∈ ops, Def ρ x) (h : plusCreate Γ ops = .ok r) :
    V ρ r (ops.map (sval ρ)).sum := by
  obtain ⟨st, h1, h'⟩ := Except.bind_ok h
  clear h
  obtain ⟨fops, h2, h⟩ := Except.bind_ok h'
  clear h'
  cases h
  obtain ⟨hf1, hf2⟩ := flatPlus_def hd
  have hi := collect_V hΓ _ _ _ (0 : L) (fun x hx => hf1 x ((hΓ.plus _).mem_iff.mp hx)) (show Inv (ρ := ρ) ((.zero, []) : SX K × List (SX K × SX K)) 0 from ⟨trivial, by simp, by simp [sval]⟩) h1
  rw [((hΓ.plus _).map _).sum_eq, hf2, zero_add] at hi
  have h3 : (∀ x ∈ fops, Def ρ x) ∧ (fops.map (sval ρ)).sum = (st.2.map (fun p => sval ρ p.2 * sval ρ p.1)).sum := by
    have h4 := mapM_ok_forall₂ h2
    have h5 := hi.terms
    clear h2 h1 hi
    generalize st.2 = m at h4 h5
    induction h4 with
    | nil => simp
    | @cons p x m fops hp _ ih =>
      obtain ⟨h6, h7⟩ := ih (fun q hq => h5 q (List.mem_cons_of_mem _ hq))
      have hp5 := h5 p (by simp)
      have hm := mul_V hΓ (wrapped_def hp5.2) hp5.1 hp
      refine ⟨fun y hy => ?_, ?_⟩
      · rcases List.mem_cons.mp hy with rfl | hy
        · exact hm.1
        · exact h6 y hy
      · simp only [List.map_cons, List.sum_cons, h7, hm.2]
  have hfil : ∀ l : List (SX K), ((l.filter (fun op => !isZero op)).map (sval ρ)).sum = (l.map (sval ρ)).sum := by
    intro l
    induction l with
    | nil => rfl
    | cons x l ih =>
      rw [List.filter_cons]
      split
      · simp [ih]
      · rename_i hz
        have : isZero x = true := by simpa using hz
        simp [ih, isZero_val this]
  have ha0 : (((if isZero st.1 then [] else [st.1]) : List (SX K)).map (sval ρ)).sum = sval ρ st.1 := by
    split
    · rename_i hz; simp [isZero_val hz]
    · simp
  have := wrapPlus_V (ρ := ρ) (l := (if isZero st.1 then [] else [st.1]) ++ fops.filter (fun op => !isZero op)) (fun x hx => ?_)
  · rwa [List.map_append, List.sum_append, hfil, h3.2, ha0, hi.sum] at this
  · rcases List.mem_append.mp hx with hx | hx
    · split at hx
      · cases hx
      · rw [List.mem_singleton] at hx; subst hx; exact wrapped_def hi.a0
    · exact h3.1 x (List.mem_filter.mp hx).1

theorem plusCreate2_V (hΓ : SortCtx Γ) {x y r : SX K} (hx : Def ρ x) (hy : Def ρ y) (h : plusCreate Γ [x, y] = .ok r) :
    V ρ r (sval ρ x + sval ρ y) := by
  have := plusCreate_V (ρ := ρ) hΓ (ops := [x, y]) (by simp [hx, hy]) h
  simpa using this

theorem add_V (hΓ : SortCtx Γ) {x y r : SX K} (hx : Def ρ x) (hy : Def ρ y) (h : add Γ x y = .ok r) : V ρ r (sval ρ x + sval ρ y) := by
  unfold add at h
  split at h
  · rename_i h1; cases h; exact (addVals_V h1).2
  · split at h
    · rename_i h1; cases h; simp [V, hx, isZero_val h1]
    · exact plusCreate2_V hΓ hx hy h

/-! ## The claims -/

/-- C35: `+`, `*`, unary `-` and integer powers of scalars denote the operations on their values, for all wrapped values, `Zero`,
`One` and symbolic scalars, in every field and for every assignment of values under which no negative power of zero occurs. -/
theorem C35_arithmetic (hΓ : SortCtx Γ) {x y r : SX K} (hx : Def ρ x) (hy : Def ρ y) :
    (add Γ x y = .ok r → sval ρ r = sval ρ x + sval ρ y) ∧ (mul Γ x y = .ok r → sval ρ r = sval ρ x * sval ρ y) ∧
    (neg Γ x = .ok r → sval ρ r = - sval ρ x) ∧
    (∀ e : ℤ, (e < 0 → sval ρ x ≠ 0) → powS x e = .ok r → sval ρ r = sval ρ x ^ e) :=
  ⟨fun h => (add_V hΓ hx hy h).2, fun h => (mul_V hΓ hx hy h).2, fun h => (neg_V hΓ hx h).2, fun _ he h => (powS_V hx he h).2⟩

/-- C35 (partial): subtraction denotes subtraction, unless the left side is `One` and the right side is a symbolic scalar
(see `C35_refuted_one_minus`). -/
theorem C35_sub_partial (hΓ : SortCtx Γ) {x y r : SX K} (hx : Def ρ x) (hy : Def ρ y) (hne : x = .one → Wrapped y) (h : sub Γ x y = .ok r) :
    sval ρ r = sval ρ x - sval ρ y := by
  unfold sub at h
  split at h
  · cases h; simp [(create_V (ρ := ρ) _).2, sval]
  · cases h; simp [(create_V (ρ := ρ) _).2, sval]
  · cases h; simp [(create_V (ρ := ρ) _).2, sval]
  · cases h; simp [(create_V (ρ := ρ) _).2, sval]
  · cases h; simp [sval]
  · rename_i h1 h2
    split at h
    · rename_i hz; cases h; rw [isZero_val hz]; simp
    · rename_i hz
      rcases (hne rfl).cases with rfl | rfl | ⟨k, rfl⟩
      · simp [isZero] at hz
      · exact (h2 rfl).elim
      · exact (h1 k rfl).elim
  · split at h
    · rename_i hz; cases h; rw [isZero_val hz]; simp
    · obtain ⟨z, h1, h2⟩ := Except.bind_ok h
      have hz := minus_V hΓ hy h1
      have := (add_V hΓ hx hz.1 h2).2
      rw [this, hz.2, sub_eq_add_neg]

/-- C35: arithmetic with Python numbers on either side denotes the arithmetic of the values. -/
theorem C35_numbers (hΓ : SortCtx Γ) {x r : SX K} {k : K} (hx : Def ρ x) :
    (addNum Γ x k = .ok r → sval ρ r = sval ρ x + algebraMap K L k) ∧ (mulNum Γ x k = .ok r → sval ρ r = algebraMap K L k * sval ρ x) ∧
    (subNum Γ x k = .ok r → sval ρ r = sval ρ x - algebraMap K L k) ∧ (numSub Γ k x = .ok r → sval ρ r = algebraMap K L k - sval ρ x) := by
  have hadd : ∀ {x r : SX K} {k : K}, Def ρ x → addNum Γ x k = .ok r → sval ρ r = sval ρ x + algebraMap K L k := by
    intro x r k hx h
    unfold addNum at h
    split at h
    · cases h; simp [(create_V (ρ := ρ) _).2, sval]
    · cases h; simp [(create_V (ρ := ρ) _).2, sval]
    · cases h; simp [(create_V (ρ := ρ) _).2, sval]
    · split at h
      · rename_i h0; cases h; simp [h0]
      · have hc := create_V (ρ := ρ) k
        rw [(plusCreate2_V hΓ hx hc.1 h).2, hc.2]
  refine ⟨hadd hx, fun h => ?_, fun h => ?_, fun h => ?_⟩
  · unfold mulNum at h
    split at h
    · cases h; simp [(create_V (ρ := ρ) _).2, sval, mul_comm]
    · cases h; simp [sval]
    · cases h; simp [(create_V (ρ := ρ) _).2, sval]
    · split at h
      · rename_i h0; cases h; simp [h0]
      split at h
      · rename_i h0; cases h; simp [h0, sval]
      · have hc := create_V (ρ := ρ) k
        rw [(timesCreate2_V hΓ hc.1 hx h).2, hc.2]
  · unfold subNum at h
    split at h
    · cases h; simp [(create_V (ρ := ρ) _).2, sval]
    · cases h; simp [(create_V (ρ := ρ) _).2, sval]
    · cases h; simp [(create_V (ρ := ρ) _).2, sval]
    · split at h
      · rename_i h0; cases h; simp [h0]
      · rw [hadd hx h]; simp [sub_eq_add_neg]
  · unfold numSub at h
    split at h
    · cases h; simp [(create_V (ρ := ρ) _).2, sval]
    · cases h; simp [(create_V (ρ := ρ) _).2, sval]
    · cases h; simp [(create_V (ρ := ρ) _).2, sval]
    · split at h
      · rename_i h0; rw [(neg_V hΓ hx h).2]; simp [h0]
      · obtain ⟨z, h1, h2⟩ := Except.bind_ok h
        have hz := minus_V hΓ hx h1
        rw [hadd hz.1 h2, hz.2]; ring

/-- properly wrapped: a value equal to 0 or 1 is the singleton -/
def Proper : SX K → Prop
  | .zero => True
  | .one => True
  | .val k => k ≠ 0 ∧ k ≠ 1
  | _ => False

omit [Field L] [Algebra K L] in
theorem create_proper (k : K) : Proper (create k) := by
  unfold create
  split
  · trivial
  · split
    · trivial
    · exact ⟨by assumption, by assumption⟩

/-- C35: arithmetic on wrapped values yields wrapped values, in which 0 and 1 are represented by the singletons `Zero` and `One`
(`One + One` is 2; this needs `2 ≠ 0, 1`). -/
theorem C35_singletons [CharZero K] {x y r : SX K} (hx : Proper x) (hy : Proper y) :
    (add Γ x y = .ok r → Proper r) ∧ (sub Γ x y = .ok r → Proper r) ∧ (mul Γ x y = .ok r → Proper r) ∧ (neg Γ x = .ok r → Proper r) := by
  have hneg1 : Proper (.val (-1) : SX K) := by
    refine ⟨by simp, fun h => ?_⟩
    have : (2 : K) = 0 := by
      have h2 : (-1 : K) + 1 = 1 + 1 := by rw [h]
      rw [neg_add_cancel] at h2
      rw [h2]; norm_num
    exact two_ne_zero this
  have h2 : Proper (.val 2 : SX K) := ⟨two_ne_zero, by norm_num⟩
  have hadd : ∀ {x y r : SX K}, Proper x → Proper y → add Γ x y = .ok r → Proper r := by
    intro x y r hx hy h
    cases x <;> cases y <;> first | exact hx.elim | exact hy.elim | skip
    all_goals simp only [add, addVals] at h
    all_goals cases h
    all_goals first | trivial | exact create_proper _ | exact hx | exact hy | exact h2
  refine ⟨hadd hx hy, fun h => ?_, fun h => ?_, fun h => ?_⟩
  · cases x <;> cases y <;> first | exact hx.elim | exact hy.elim | skip
    all_goals simp only [sub, isZero, minus] at h
    all_goals first
      | (cases h; first | trivial | exact create_proper _ | exact hx | exact hy)
      | skip
    · exact hadd (by trivial) (create_proper _) h
  · cases x <;> cases y <;> first | exact hx.elim | exact hy.elim | skip
    all_goals simp [mul, isZero, isOne] at h
    all_goals first
      | (cases h; first | trivial | exact create_proper _ | exact hx | exact hy)
      | skip
  · cases x <;> first | exact hx.elim | skip
    all_goals simp only [neg] at h
    all_goals cases h
    all_goals first | trivial | exact create_proper _ | exact hneg1

/-- C35: conversion to `float`/`int` gives the value. -/
theorem C35_float {x : SX K} {k : K} (h : toFloat x = some k) : sval ρ x = algebraMap K L k := by
  cases x <;> simp [toFloat] at h <;> simp [sval, ← h]

/-- C35 (partial): conversion to `complex` gives the value of every wrapped value other than `One` -/
theorem C35_complex_partial {i : K} {x : SX K} {k : K} (hx : x ≠ .one) (h : toComplex i x = some k) : sval ρ x = algebraMap K L k := by
  cases x <;> simp [toComplex] at h <;> first | (exact (hx rfl).elim) | simp [sval, ← h]

/-- C35 refuted: `complex(One)` is the imaginary unit, not 1. -/
theorem C35_refuted_complex {i : K} (hi : i ≠ 1) : toComplex i (.one : SX K) = some i ∧ toComplex i (.one : SX K) ≠ some 1 := by
  refine ⟨rfl, fun h => hi ?_⟩
  simpa [toComplex] using h

/-- operands in the given order -/
def Ctx.plain (K : Type) : Ctx K := ⟨id, id, 10⟩

/-- C35 refuted: `One - x` for a symbolic scalar `x` gives `1 + x`. -/
theorem C35_refuted_one_minus : sub (Ctx.plain ℚ) .one (.sym 0) = .ok (.plus [.one, .sym 0]) ∧
    sval (fun _ => (1 : ℚ)) (.plus [.one, .sym 0] : SX ℚ) ≠ sval (fun _ => (1 : ℚ)) (.one : SX ℚ) - sval (fun _ => (1 : ℚ)) (.sym 0 : SX ℚ) := by
  refine ⟨by kernel_rfl, ?_⟩
  simp [sval, svals]

/-- C35 refuted: numbers are not collected once `One` is among the summands: `(x + 1) - 1` is the sum of -1, 1 and `x`, not `x`. -/
theorem C35_refuted_collect : addNum (Ctx.plain ℚ) (.sym 0) 1 = .ok (.plus [.sym 0, .one]) ∧
    subNum (Ctx.plain ℚ) (.plus [.sym 0, .one]) 1 = .ok (.plus [.val (-1), .sym 0, .one]) := by
  constructor <;> kernel_rfl

/-! Concrete cases -/
example : SortCtx (Ctx.plain ℚ) := ⟨fun _ => .refl _, fun _ => .refl _⟩
example : add (Ctx.plain ℚ) (.val 3) (.val (-2)) = .ok .one := by kernel_rfl
example : mul (Ctx.plain ℚ) (.sym 0) (.sym 0) = .ok (.pow (.sym 0) 2) := by kernel_rfl
example : mul (Ctx.plain ℚ) (.pow (.sym 0) 3) (.pow (.sym 0) (-2)) = .ok (.sym 0) := by kernel_rfl
example : plusCreate (Ctx.plain ℚ) [.val 1, .times [.val 2, .sym 0], .val 2, .times [.val 2, .sym 0]] = .ok (.plus [.val 3, .times [.val 4, .sym 0]]) := by kernel_rfl

end QNET.Scalar
