import Verif.Trace.Model
import Verif.Trace.Ptrace
import Verif.Util.KernelRfl
import Verif.Indexed.Sem
import Mathlib.Algebra.BigOperators.Group.List.Basic
import Mathlib.Tactic.NoncommRing

/-!
# C48: partial traces factor correctly

The value of an expression is a matrix on the product of all local spaces (`Verif/Trace/Ptrace.lean`), the trace over the spaces `H` has the
value `ptr H`.
-/

namespace QNET.Trace

open QNET.Perm (Res Err)
open QNET.Indexed (Except.bind_ok mapM_ok_cons mapM_ok_forall₂)
open Matrix

variable {ι K : Type} [Fintype ι] [DecidableEq ι] [CommRing K] [StarRing K]

/-- An interpretation: matrices for the symbols, which act on the space of the symbol, and the matrix elements of the annihilation
operators, `√n` in QNET (any other sequence will do). -/
structure Interp (ι : Type) [Fintype ι] [DecidableEq ι] (d : ι → ℕ) (K : Type) [CommRing K] where
  sym : ℕ → Finset ι → Mat d K
  acts : ∀ a s, ActsOn s (sym a s)
  sqrt : ℕ → K

variable {d : ι → ℕ} (I : Interp ι d K)

mutual
/-- the operator that an expression denotes -/
def Op.val : Op ι K → Mat d K
  | .zero => 0
  | .one => 1
  | .sym a s => I.sym a s
  | .create l => embed l (Matrix.of fun a b => if (b : ℕ) + 1 = a then star (I.sqrt a) else 0)
  | .destroy l => embed l (Matrix.of fun a b => if (a : ℕ) + 1 = b then I.sqrt b else 0)
  | .sigma j k l => embed l (Matrix.of fun a b => if (a : ℕ) = j ∧ (b : ℕ) = k then 1 else 0)
  | .plus l => (valL l).sum
  | .times l => (valL l).prod
  | .smul c t => c • t.val
  | .adj t => (t.val)ᴴ
  | .trace l t => ptr {l} t.val
/-- values of a list -/
def valL : List (Op ι K) → List (Mat d K)
  | [] => []
  | t :: ts => t.val :: valL ts
end

theorem valL_eq (l : List (Op ι K)) : valL I l = l.map (Op.val I) := by
  induction l with
  | nil => rfl
  | cons a l ih => rw [valL, ih]; rfl

mutual
/-- the level indices of every `LocalSigma` are levels of its space (LocalSigma.__init__, operator_algebra.py 355-356, checks this
where the dimension is known) -/
def Op.wf (d : ι → ℕ) : Op ι K → Prop
  | .sigma j k l => j < d l ∧ k < d l
  | .plus l => wfL d l
  | .times l => wfL d l
  | .smul _ t => t.wf d
  | .adj t => t.wf d
  | .trace _ t => t.wf d
  | _ => True
/-- all operators of a list are well-formed -/
def wfL (d : ι → ℕ) : List (Op ι K) → Prop
  | [] => True
  | t :: ts => t.wf d ∧ wfL d ts
end

omit [Fintype ι] [DecidableEq ι] [CommRing K] [StarRing K] in
theorem wfL_iff (l : List (Op ι K)) : wfL d l ↔ ∀ t ∈ l, t.wf d := by
  induction l with
  | nil => simp [wfL]
  | cons a l ih => simp [wfL, ih]

omit [Fintype ι] [CommRing K] [StarRing K] in
theorem space_subset_spaceL {l : List (Op ι K)} {t : Op ι K} (h : t ∈ l) : t.space ⊆ spaceL l := by
  induction l with
  | nil => simp at h
  | cons a l ih =>
    rw [spaceL]
    rcases List.mem_cons.mp h with rfl | h
    · exact Finset.subset_union_left
    · exact (ih h).trans Finset.subset_union_right

omit [Fintype ι] [CommRing K] [StarRing K] in
theorem spaceL_subset {l : List (Op ι K)} {S : Finset ι} (h : ∀ t ∈ l, t.space ⊆ S) : spaceL l ⊆ S := by
  induction l with
  | nil => simp [spaceL]
  | cons a l ih =>
    rw [spaceL]
    exact Finset.union_subset (h a (by simp)) (ih fun t ht => h t (by simp [ht]))

mutual
/-- every expression acts on its `space` only -/
theorem Op.val_acts : ∀ t : Op ι K, ActsOn t.space (t.val I)
  | .zero => by rw [Op.val]; exact actsOn_zero _
  | .one => by rw [Op.val]; exact actsOn_one _
  | .sym a s => by rw [Op.val, Op.space]; exact I.acts a s
  | .create l => by rw [Op.val, Op.space]; exact embed_actsOn l _
  | .destroy l => by rw [Op.val, Op.space]; exact embed_actsOn l _
  | .sigma j k l => by rw [Op.val, Op.space]; exact embed_actsOn l _
  | .plus l => by
    rw [Op.val, Op.space]
    exact (valL_acts l).1
  | .times l => by
    rw [Op.val, Op.space]
    exact (valL_acts l).2
  | .smul c t => by
    rw [Op.val, Op.space]
    exact (Op.val_acts t).smul c
  | .adj t => by
    rw [Op.val, Op.space]
    exact (Op.val_acts t).star
  | .trace l t => by
    rw [Op.val, Op.space, ptr_singleton]
    exact (Op.val_acts t).ptr1 l
theorem valL_acts : ∀ l : List (Op ι K), ActsOn (spaceL l) (valL I l).sum ∧ ActsOn (spaceL l) (valL I l).prod
  | [] => by simp only [valL, List.sum_nil, List.prod_nil]; exact ⟨actsOn_zero _, actsOn_one _⟩
  | t :: ts => by
    have h1 := (Op.val_acts t).mono (T := spaceL (t :: ts)) (by rw [spaceL]; exact Finset.subset_union_left)
    have h2 := (valL_acts ts).1.mono (T := spaceL (t :: ts)) (by rw [spaceL]; exact Finset.subset_union_right)
    have h3 := (valL_acts ts).2.mono (T := spaceL (t :: ts)) (by rw [spaceL]; exact Finset.subset_union_right)
    simp only [valL, List.sum_cons, List.prod_cons]
    exact ⟨h1.add h2, h1.mul h3⟩
end

theorem prod_acts {l : List (Op ι K)} {S : Finset ι} (h : ∀ t ∈ l, t.space ⊆ S) : ActsOn S (l.map (Op.val I)).prod := by
  rw [← valL_eq]
  exact (valL_acts I l).2.mono (spaceL_subset h)

/-- What is assumed of the constructors: they return a well-formed operator with the value that their name says. -/
structure Mk.Sound (mk : Mk ι K) : Prop where
  times : ∀ l t, mk.times l = .ok t → (∀ o ∈ l, o.wf d) → t.wf d ∧ t.val I = (l.map (Op.val I)).prod
  plus : ∀ l t, mk.plus l = .ok t → (∀ o ∈ l, o.wf d) → t.wf d ∧ t.val I = (l.map (Op.val I)).sum
  smul : ∀ c o t, mk.smul c o = .ok t → o.wf d → t.wf d ∧ t.val I = c • o.val I
  adj : ∀ o t, mk.adj o = .ok t → o.wf d → t.wf d ∧ t.val I = (o.val I)ᴴ

/-! ## the reorderings -/

/-- pulling out factors that commute with all factors before them that stay -/
theorem filter_prod (p : Op ι K → Bool) : ∀ ops : List (Op ι K),
    ops.Pairwise (fun a b => p a = false → p b = true → a.val I * b.val I = b.val I * a.val I) →
    (ops.map (Op.val I)).prod = ((ops.filter p).map (Op.val I)).prod * ((ops.filter fun o => !p o).map (Op.val I)).prod
  | [], _ => by simp
  | a :: ops, h => by
    rw [List.pairwise_cons] at h
    have ih := filter_prod p ops h.2
    rw [List.map_cons, List.prod_cons, ih]
    by_cases hp : p a = true
    · simp [hp, mul_assoc]
    · have hp' : p a = false := by simpa using hp
      have hc : a.val I * ((ops.filter p).map (Op.val I)).prod = ((ops.filter p).map (Op.val I)).prod * a.val I := by
        have : ∀ b ∈ ops.filter p, a.val I * b.val I = b.val I * a.val I := by
          intro b hb
          rw [List.mem_filter] at hb
          exact h.1 b hb.1 hp' hb.2
        generalize ops.filter p = q at this
        induction q with
        | nil => simp
        | cons b q ihq =>
          rw [List.map_cons, List.prod_cons, ← mul_assoc, this b (by simp), mul_assoc, ihq fun c hc => this c (by simp [hc]), mul_assoc]
      simp only [List.filter_cons, hp', Bool.false_eq_true, if_false, Bool.not_false, if_true, List.map_cons, List.prod_cons]
      rw [← mul_assoc, hc, mul_assoc]

theorem sigma_proj {j k : ℕ} {l : ι} (hj : j < d l) :
    (Op.sigma j j l : Op ι K).val I * (Op.sigma j k l : Op ι K).val I = (Op.sigma j k l : Op ι K).val I := by
  simp only [Op.val]
  rw [embed_mul]
  congr 1
  ext a b
  rw [Matrix.mul_apply, Fintype.sum_eq_single ⟨j, hj⟩]
  · by_cases ha : (a : ℕ) = j <;> simp [ha]
  · intro c hc
    have : (c : ℕ) ≠ j := fun h => hc (Fin.ext h)
    simp [this]

omit [Fintype ι] [CommRing K] [StarRing K] in
theorem findIdx_sigma {rest : List (Op ι K)} {o : Op ι K} (h : rest[rest.findIdx isSigma]? = some o) : isSigma o = true := by
  rw [List.getElem?_eq_some_iff] at h
  obtain ⟨hl, rfl⟩ := h
  exact List.findIdx_getElem

/-- the rotation keeps the trace -/
theorem rotate_val {l : ι} {rest rest' : List (Op ι K)} (h : rotate l rest = .ok rest') (hs : RotSafe l rest)
    (hl : ∀ o ∈ rest, l ∈ o.space) (hw : ∀ o ∈ rest, o.wf d) :
    (∀ o ∈ rest', o.wf d) ∧ ptr1 l (rest'.map (Op.val I)).prod = ptr1 l (rest.map (Op.val I)).prod := by
  unfold rotate at h
  split at h
  swap
  · exact absurd h (by simp)
  split at h
  swap
  · cases h; exact ⟨hw, rfl⟩
  dsimp only at h
  split at h
  swap
  · cases h; exact ⟨hw, rfl⟩
  rename_i m k l' hg
  rw [Except.ok.injEq] at h
  subst h
  set j := rest.findIdx isSigma with hj
  have hmem : (Op.sigma m k l' : Op ι K) ∈ rest := List.mem_of_getElem? hg
  have hl' : l' = l := by
    have := hl _ hmem
    rw [Op.space, Finset.mem_singleton] at this
    exact this.symm
  subst hl'
  have hm : m < d l' := (hw _ hmem).1
  have hdrop : rest.drop j = Op.sigma m k l' :: rest.drop (j + 1) := by
    rw [List.getElem?_eq_some_iff] at hg
    obtain ⟨hlt, he⟩ := hg
    rw [List.drop_eq_getElem_cons hlt, he]
  refine ⟨?_, ?_⟩
  · intro o ho
    simp only [List.mem_append, List.mem_singleton] at ho
    rcases ho with (ho | ho) | rfl
    · exact hw o (List.mem_of_mem_drop ho)
    · exact hw o (List.mem_of_mem_take ho)
    · exact ⟨hm, hm⟩
  · rw [List.map_append, List.map_append, List.prod_append, List.prod_append, List.map_singleton, List.prod_singleton]
    -- move the projector to the front
    rw [ptr1_cyclic (S := Finset.univ) (T := {l'}) (ActsOn.mono (S := spaceL (rest.drop j ++ rest.take j)) ?_ (Finset.subset_univ _))
      (by rw [Op.val]; exact embed_actsOn l' _) l' (by intro i _ hi; simpa using hi)]
    · rw [← mul_assoc]
      have : (Op.sigma m m l' : Op ι K).val I * ((rest.drop j).map (Op.val I)).prod = ((rest.drop j).map (Op.val I)).prod := by
        rw [hdrop, List.map_cons, List.prod_cons, ← mul_assoc, sigma_proj I hm]
      rw [this]
      rw [ptr1_cyclic (S := spaceL (rest.drop j)) (T := spaceL (rest.take j)) (prod_acts I fun t ht => space_subset_spaceL ht)
        (prod_acts I fun t ht => space_subset_spaceL ht) l' ?_]
      · conv_rhs => rw [← List.take_append_drop j rest]
        rw [List.map_append, List.prod_append]
      · intro i hi hne ht
        -- the two parts share only `l`
        have mem_spaceL : ∀ (q : List (Op ι K)) (i : ι), i ∈ spaceL q → ∃ o ∈ q, i ∈ o.space := by
          intro q i
          induction q with
          | nil => simp [spaceL]
          | cons a q ih =>
            rw [spaceL, Finset.mem_union]
            rintro (h | h)
            · exact ⟨a, by simp, h⟩
            · obtain ⟨o, ho, hh⟩ := ih h
              exact ⟨o, by simp [ho], hh⟩
        obtain ⟨b, hb, hib⟩ := mem_spaceL _ _ hi
        obtain ⟨a, ha, hia⟩ := mem_spaceL _ _ ht
        exact hs a ha b hb i hia hne hib
    · rw [← List.prod_append, ← List.map_append]
      exact prod_acts I fun t ht => space_subset_spaceL ht

omit [Fintype ι] [CommRing K] [StarRing K] in
theorem rotate_wf_len {l : ι} {rest rest' : List (Op ι K)} (h : rotate l rest = .ok rest') : rest ≠ [] := by
  rintro rfl
  simp [rotate] at h

/-- `factor_for_trace`: a product is split such that the trace keeps its value -/
theorem factorPlan_split {strict : Bool} {l : ι} {op : Op ι K} {pull rest : List (Op ι K)}
    (h : factorPlan strict l op = .ok (.split pull rest)) (hs : strict = true) (hw : op.wf d) :
    (∀ o ∈ pull, o.wf d) ∧ (∀ o ∈ rest, o.wf d) ∧
      (pull.map (Op.val I)).prod * ptr1 l (rest.map (Op.val I)).prod = ptr1 l (op.val I) := by
  unfold factorPlan at h
  split at h
  · -- everything acts on `l` or nowhere
    split at h
    swap
    · exact absurd h (by simp)
    rename_i ops hsp
    dsimp only at h
    split at h
    · exact absurd h (by simp)
    simp only [Except.ok.injEq, Plan.split.injEq] at h
    obtain ⟨rfl, rfl⟩ := h
    rw [Op.wf, wfL_iff] at hw
    refine ⟨fun o ho => hw o (List.mem_filter.mp ho).1, fun o ho => hw o (List.mem_filter.mp ho).1, ?_⟩
    rw [Op.val, valL_eq, filter_prod I (fun o => decide (o.space = ∅)) ops]
    · symm
      refine ptr1_mul_left (S := ∅) (prod_acts I fun t ht => ?_) (by simp) _
      have := (List.mem_filter.mp ht).2
      rw [decide_eq_true_eq] at this
      rw [this]
    · refine List.Pairwise.imp_of_mem (R := fun _ _ => True) ?_ (by simp [List.pairwise_iff_getElem])
      intro a b _ _ _ _ hb
      rw [decide_eq_true_eq] at hb
      exact (Op.val_acts I a).commute (Op.val_acts I b) (by rw [hb]; exact Finset.disjoint_empty_right _)
  · split at h
    · exact absurd h (by simp)
    split at h
    swap
    · exact absurd h (by simp)
    rename_i ops _ _
    dsimp only at h
    obtain ⟨rest', hr, h⟩ := Except.bind_ok h
    split at h
    · exact absurd h (by simp)
    split at h
    · exact absurd h (by simp)
    rename_i hsafe
    simp only [Except.ok.injEq, Plan.split.injEq] at h
    obtain ⟨rfl, rfl⟩ := h
    rw [hs] at hsafe
    simp only [Bool.true_and, Bool.not_eq_true', Bool.not_eq_false, Bool.and_eq_true, decide_eq_true_eq] at hsafe
    obtain ⟨hp, hrot⟩ := hsafe
    rw [Op.wf, wfL_iff] at hw
    obtain ⟨hwr, hv⟩ := rotate_val I hr hrot (by intro o ho; simpa using (List.mem_filter.mp ho).2)
      (fun o ho => hw o (List.mem_filter.mp ho).1)
    refine ⟨fun o ho => hw o (List.mem_filter.mp ho).1, hwr, ?_⟩
    rw [hv, Op.val, valL_eq, filter_prod I (fun o => decide (l ∉ o.space)) ops]
    · symm
      refine ptr1_mul_left (S := Finset.univ \ {l}) (prod_acts I fun t ht => ?_) (by simp) _
      have := (List.mem_filter.mp ht).2
      rw [decide_eq_true_eq] at this
      intro i hi
      simp only [Finset.mem_sdiff, Finset.mem_univ, true_and, Finset.mem_singleton]
      rintro rfl
      exact this hi
    · refine hp.imp ?_
      intro a b hab ha hb
      simp only [decide_eq_false_iff_not, not_not] at ha
      rw [decide_eq_true_eq] at hb
      exact (Op.val_acts I a).commute (Op.val_acts I b) (hab ha hb)

omit [StarRing K] [Fintype ι] [DecidableEq ι] [CommRing K] in
theorem dimension_eq {dim : ι → Option ℕ} (hd : ∀ l n, dim l = some n → n = d l) : ∀ {H : List ι} {D : ℕ}, dimension dim H = .ok D →
    D = (H.map d).prod
  | [], D, h => by cases h; rfl
  | l :: H, D, h => by
    rw [dimension] at h
    split at h
    · cases h
    · rename_i n hn
      obtain ⟨m, hm, h⟩ := Except.bind_ok h
      cases h
      rw [List.map_cons, List.prod_cons, ← dimension_eq hd hm, hd l n hn]

theorem localRule_val {l : ι} {A t : Op ι K} (h : localRule l A = some t) (hw : A.wf d) :
    t.wf d ∧ t.val I = ptr1 l (A.val I) := by
  cases A with
  | create l' =>
    rw [localRule] at h
    split at h
    swap
    · cases h
    rename_i e
    subst e
    cases h
    refine ⟨trivial, ?_⟩
    simp only [Op.val]
    rw [ptr1_embed]
    simp
  | destroy l' =>
    rw [localRule] at h
    split at h
    swap
    · cases h
    rename_i e
    subst e
    cases h
    refine ⟨trivial, ?_⟩
    simp only [Op.val]
    rw [ptr1_embed]
    simp
  | sigma j k l' =>
    rw [localRule] at h
    split at h
    swap
    · cases h
    rename_i e
    subst e
    simp only [Op.val]
    rw [ptr1_embed]
    by_cases hjk : j = k
    · subst hjk
      rw [if_pos rfl] at h
      cases h
      refine ⟨trivial, ?_⟩
      rw [Fintype.sum_eq_single ⟨j, hw.1⟩]
      · simp [Op.val]
      · intro c hc
        have : (c : ℕ) ≠ j := fun h => hc (Fin.ext h)
        simp [this]
    · rw [if_neg hjk] at h
      cases h
      refine ⟨trivial, ?_⟩
      rw [Finset.sum_eq_zero]
      · simp [Op.val]
      · intro c _
        simp only [Matrix.of_apply]
        rw [if_neg]
        rintro ⟨h1, h2⟩
        exact hjk (h1.symm.trans h2)
  | _ => cases h

theorem applyPlan_val {mk : Mk ι K} (hm : mk.Sound I) {dim : ι → Option ℕ} (hd : ∀ l n, dim l = some n → n = d l)
    {rec : Op ι K → Res (Op ι K)} {l : ι}
    (ih : ∀ R T, rec R = .ok T → R.wf d → T.wf d ∧ T.val I = ptr1 l (R.val I)) {A B : Op ι K} {plan : Plan ι K}
    (hp : factorPlan true l A = .ok plan) (h : applyPlan mk dim rec l A plan = .ok B) (hw : A.wf d) :
    B.wf d ∧ B.val I = ptr1 l (A.val I) := by
  cases plan with
  | cannot => cases h; exact ⟨hw, by rw [Op.val, ptr_singleton]⟩
  | dimTimes =>
    rw [applyPlan] at h
    obtain ⟨D, hD, h⟩ := Except.bind_ok h
    obtain ⟨h1, h2⟩ := hm.smul _ _ _ h hw
    refine ⟨h1, ?_⟩
    have hl : l ∉ A.space := by
      unfold factorPlan at hp
      split at hp
      · split at hp
        · dsimp only at hp
          split at hp <;> cases hp
        · cases hp
      · split at hp
        · assumption
        · split at hp
          · dsimp only at hp
            obtain ⟨r, _, hp⟩ := Except.bind_ok hp
            split at hp
            · cases hp
            · split at hp <;> cases hp
          · cases hp
    rw [h2, ptr1_of_not_mem (Op.val_acts I A) hl, dimension_eq hd hD]
    simp
  | split pull rest =>
    rw [applyPlan] at h
    obtain ⟨P, hP, h⟩ := Except.bind_ok h
    obtain ⟨R, hR, h⟩ := Except.bind_ok h
    obtain ⟨T, hT, h⟩ := Except.bind_ok h
    obtain ⟨w1, w2, hv⟩ := factorPlan_split I hp rfl hw
    obtain ⟨wP, vP⟩ := hm.times _ _ hP w1
    obtain ⟨wR, vR⟩ := hm.times _ _ hR w2
    obtain ⟨wT, vT⟩ := ih _ _ hT wR
    obtain ⟨wB, vB⟩ := hm.times _ _ h (by intro o ho; simp only [List.mem_cons, List.not_mem_nil, or_false] at ho; rcases ho with rfl | rfl <;> assumption)
    refine ⟨wB, ?_⟩
    rw [vB, ← hv]
    simp [vP, vT, vR]

/-- the shape of `trc` for operators that no rule before R007 matches -/
def Irr : Op ι K → Prop
  | .zero => False
  | .one => False
  | .plus _ => False
  | .adj _ => False
  | .smul _ _ => False
  | _ => True

omit [Fintype ι] [StarRing K] in
theorem trc_local {strict : Bool} {mk : Mk ι K} {dim : ι → Option ℕ} {n : ℕ} {l : ι} {A : Op ι K} (hA : Irr A) :
    trc strict mk dim (n + 1) [l] A = (match localRule l A with
      | some t => .ok t
      | none => factorPlan strict l A >>= fun plan => applyPlan mk dim (trc strict mk dim n [l]) l A plan) := by
  cases A <;> first | exact hA.elim | (simp only [trc] <;> rfl)

omit [Fintype ι] [StarRing K] in
theorem trc_prod {strict : Bool} {mk : Mk ι K} {dim : ι → Option ℕ} {n : ℕ} {h h' : ι} {H : List ι} {A : Op ι K} (hA : Irr A) :
    trc strict mk dim (n + 1) (h :: h' :: H) A = (do
      let B ← trc strict mk dim n [(h :: h' :: H).getLast (by simp)] A
      trc strict mk dim n (h :: h' :: H).dropLast B) := by
  cases A <;> first | exact hA.elim | simp only [trc]

/-- soundness of the trace with checks on the reorderings -/
theorem trc_val {mk : Mk ι K} (hm : mk.Sound I) {dim : ι → Option ℕ} (hd : ∀ l n, dim l = some n → n = d l) :
    ∀ (n : ℕ) (H : List ι) (A B : Op ι K), H.Nodup → A.wf d → trc true mk dim n H A = .ok B →
      B.wf d ∧ B.val I = ptr H.toFinset (A.val I) := by
  intro n
  induction n with
  | zero => intro H A B _ _ h; cases H <;> simp [trc] at h
  | succ n ih =>
    intro H A B hH hw h
    rcases H with _ | ⟨l, H⟩
    · simp only [trc, Except.ok.injEq] at h
      subst h
      exact ⟨hw, by rw [List.toFinset_nil, ptr_empty]⟩
    by_cases hI : Irr A
    · rcases H with _ | ⟨l', H⟩
      · rw [trc_local hI] at h
        have e : ptr [l].toFinset (A.val I) = ptr1 l (A.val I) := by simp [ptr_singleton]
        rw [e]
        split at h
        · rename_i t ht
          cases h
          exact localRule_val I ht hw
        · obtain ⟨plan, hp, h⟩ := Except.bind_ok h
          refine applyPlan_val I hm hd ?_ hp h hw
          intro R T hT hwR
          have := ih [l] R T (by simp) hwR hT
          simpa [ptr_singleton] using this
      · rw [trc_prod hI] at h
        obtain ⟨C, hC, h⟩ := Except.bind_ok h
        set L := l :: l' :: H with hL
        have hne : L ≠ [] := by simp [hL]
        obtain ⟨wC, vC⟩ := ih _ A C (by simp) hw hC
        rw [show [(l :: l' :: H).getLast (by simp)].toFinset = {L.getLast hne} from rfl, ptr_singleton] at vC
        have hsplit := List.dropLast_append_getLast hne
        have hnd : (L.dropLast ++ [L.getLast hne]).Nodup := by rw [hsplit]; exact hH
        rw [List.nodup_append] at hnd
        obtain ⟨wB, vB⟩ := ih _ C B hnd.1 wC h
        refine ⟨wB, ?_⟩
        rw [vB, vC]
        have hset : L.toFinset = insert (L.getLast hne) L.dropLast.toFinset := by
          conv_lhs => rw [← hsplit]
          rw [List.toFinset_append, Finset.insert_eq, Finset.union_comm]
          rfl
        rw [hset, ptr_insert]
        · intro hmem
          exact hnd.2.2 _ (List.mem_toFinset.mp hmem) _ (by simp) rfl
    · cases A with
      | zero =>
        simp only [trc, Except.ok.injEq] at h
        subst h
        exact ⟨trivial, by rw [Op.val, ptr_zero]⟩
      | one =>
        simp only [trc] at h
        obtain ⟨D, hD, h⟩ := Except.bind_ok h
        obtain ⟨h1, h2⟩ := hm.smul _ _ _ h trivial
        refine ⟨h1, ?_⟩
        rw [h2, Op.val, ptr_one, dimension_eq hd hD, List.prod_toFinset _ hH]
      | plus ts =>
        simp only [trc] at h
        obtain ⟨rs, hrs, h⟩ := Except.bind_ok h
        have hf := mapM_ok_forall₂ hrs
        rw [Op.wf, wfL_iff] at hw
        have key : ∀ {ts rs : List (Op ι K)}, List.Forall₂ (fun a b => trc true mk dim n (l :: H) a = .ok b) ts rs →
            (∀ t ∈ ts, t.wf d) → (∀ r ∈ rs, r.wf d) ∧
              (rs.map (Op.val I)).sum = ptr (l :: H).toFinset ((ts.map (Op.val I)).sum) := by
          intro ts rs hf
          induction hf with
          | nil => intro _; simp [ptr_zero]
          | cons hab _ ih2 =>
            intro hts
            obtain ⟨wb, vb⟩ := ih _ _ _ hH (hts _ (by simp)) hab
            obtain ⟨wr, vr⟩ := ih2 fun t ht => hts t (by simp [ht])
            refine ⟨by intro r hr; rcases List.mem_cons.mp hr with rfl | hr; exacts [wb, wr r hr], ?_⟩
            rw [List.map_cons, List.sum_cons, vb, vr, List.map_cons, List.sum_cons, ptr_add]
        obtain ⟨w, v⟩ := key hf hw
        obtain ⟨wB, vB⟩ := hm.plus _ _ h w
        exact ⟨wB, by rw [vB, v, Op.val, valL_eq]⟩
      | adj t =>
        simp only [trc] at h
        obtain ⟨r, hr, h⟩ := Except.bind_ok h
        obtain ⟨wr, vr⟩ := ih _ t _ hH hw hr
        obtain ⟨wB, vB⟩ := hm.adj _ _ h wr
        exact ⟨wB, by rw [vB, vr, Op.val, ptr_star]⟩
      | smul c t =>
        simp only [trc] at h
        obtain ⟨r, hr, h⟩ := Except.bind_ok h
        obtain ⟨wr, vr⟩ := ih _ t _ hH hw hr
        obtain ⟨wB, vB⟩ := hm.smul _ _ _ h wr
        exact ⟨wB, by rw [vB, vr, Op.val, ptr_smul]⟩
      | _ => exact absurd trivial hI

end QNET.Trace
