import Verif.State.Value
import Mathlib.Algebra.Group.Prod

/-! # Soundness of the state algebra: C58 -/

namespace QNET.State

open QNET.Perm (Res Err)
open QNET.Trace (Cfg Mat ActsOn embed embed_actsOn actsOn_zero actsOn_one)
open QNET.Indexed (Except.bind_ok)
open Matrix

variable {ι K : Type} [Fintype ι] [DecidableEq ι] [CommRing K] [StarRing K] [DecidableEq K] {d : ι → ℕ} {I : Interp ι d K} {mk : Mk ι K}

omit [StarRing K] in
theorem isZero_ev {u : Sc ι K} [StarRing K] (I : Interp ι d K) (h : u.isZero = true) : u.ev I = 0 := by
  cases u <;> simp [Sc.isZero] at h
  subst h; rw [Sc.ev]

omit [StarRing K] in
theorem isOne_ev {u : Sc ι K} [StarRing K] (I : Interp ι d K) (h : u.isOne = true) : u.ev I = 1 := by
  cases u <;> simp [Sc.isOne] at h
  subst h; rw [Sc.ev]

omit [Fintype ι] [DecidableEq ι] [CommRing K] [StarRing K] [DecidableEq K] in
theorem isZero_iff {t : Ket ι K} : t.isZero = true ↔ t = .zero := by cases t <;> simp [Ket.isZero]

omit [Fintype ι] [DecidableEq ι] [CommRing K] [StarRing K] [DecidableEq K] in
theorem isTriv_iff {t : Ket ι K} : t.isTriv = true ↔ t = .triv := by cases t <;> simp [Ket.isTriv]

/-- the result of an operation on a ket has the space of the ket, or is zero -/
def OkSp (r t : Ket ι K) : Prop := r = .zero ∨ (t.isZero = false ∧ r.space = t.space)

omit [CommRing K] [StarRing K] [DecidableEq K] in
theorem OkSp.refl (t : Ket ι K) : OkSp t t := by
  cases h : t.isZero
  · exact .inr ⟨h, rfl⟩
  · exact .inl (isZero_iff.mp h)

omit [CommRing K] [StarRing K] [DecidableEq K] in
theorem OkSp.trans {r x t : Ket ι K} (h : OkSp r x) (h' : OkSp x t) : OkSp r t := by
  rcases h with h | h
  · exact .inl h
  · rcases h' with rfl | h'
    · cases h.1
    · exact .inr ⟨h'.1, h.2.trans h'.2⟩

omit [CommRing K] [StarRing K] [DecidableEq K] in
theorem OkSp.space_eq {r t : Ket ι K} (h : OkSp r t) (h0 : r ≠ .zero) : r.space = t.space := (h.resolve_left h0).2

theorem scalKet_spec (hs : mk.Sound I) : ∀ (n : ℕ) (u : Sc ι K) (t r : Ket ι K), scalKet mk n u t = .ok r → u.wf d → t.wf d →
    r.wf d ∧ r.ev I = u.ev I • t.ev I ∧ OkSp r t ∧ (u.isZero = false → t.isZero = false → r.isZero = false) := by
  intro n
  induction n with
  | zero => intro u t r h; simp [scalKet] at h
  | succ n ih =>
    intro u t r h hu ht
    rw [scalKet] at h
    by_cases h1 : u.isOne = true
    · rw [if_pos h1] at h
      injection h with h; subst h
      exact ⟨ht, by rw [isOne_ev I h1, one_smul], OkSp.refl _, fun _ h => h⟩
    rw [if_neg h1] at h
    by_cases h0 : u.isZero = true
    · rw [if_pos h0] at h
      injection h with h; subst h
      refine ⟨by rw [Ket.wf]; trivial, by rw [Ket.ev, isZero_ev I h0, zero_smul], .inl rfl, fun h => ?_⟩
      rw [h0] at h; cases h
    rw [if_neg h0] at h
    rw [Bool.not_eq_true] at h0
    unfold scalRest at h
    match t, h, ht with
    | .zero, h, ht =>
      injection h with h; subst h
      exact ⟨ht, by rw [Ket.ev, smul_zero], .inl rfl, fun _ h => h⟩
    | .scal v t', h, ht =>
      obtain ⟨w, hw, h⟩ := Except.bind_ok h
      rw [Ket.wf] at ht
      obtain ⟨h1, h2⟩ := hs.scMul _ _ _ hw hu ht.1
      obtain ⟨k1, k2, k3, k4⟩ := ih w t' r h h1 ht.2.1
      refine ⟨k1, by rw [k2, h2, Ket.ev, mul_smul], ?_, fun hz _ => k4 ?_ ht.2.2.2⟩
      · rcases k3 with k3 | k3
        · exact .inl k3
        · exact .inr ⟨rfl, by rw [k3.2, Ket.space]⟩
      · by_contra hc
        rw [Bool.not_eq_false] at hc
        rcases hs.scMul_zero _ _ _ hw hc with hh | hh
        · rw [hz] at hh; cases hh
        · rw [ht.2.2.1] at hh; cases hh
    | .triv, h, ht | .sym _ _, h, ht | .basis _ _, h, ht | .coh _ _, h, ht | .plus _, h, ht | .tensor _, h, ht | .opKet _ _, h, ht =>
      injection h with h; subst h
      refine ⟨by rw [Ket.wf]; exact ⟨hu, ht, h0, rfl⟩, ?_, .inr ⟨rfl, by rw [Ket.space.eq_6]⟩, fun _ _ => rfl⟩
      show (Ket.scal u _ : Ket ι K).ev I = _
      rw [Ket.ev.eq_6]

/-! ## tensor products -/

/-- value and (multi-)space of a ket -/
def vm (I : Interp ι d K) (x : Ket ι K) : Vec d K × Multiplicative (Multiset ι) := (x.ev I, .ofAdd x.space.val)

/-- operands of tensor products -/
def Good (d : ι → ℕ) (x : Ket ι K) : Prop := x.wf d ∧ x.isZero = false

/-- the relation between operands and their value and space -/
def VM (I : Interp ι d K) (x : Ket ι K) (a : Vec d K × Multiplicative (Multiset ι)) : Prop := Good d x ∧ vm I x = a

theorem prod_VM {l : List (Ket ι K)} {m : Vec d K × Multiplicative (Multiset ι)} :
    Engine.Prod (VM I) l m ↔ (∀ x ∈ l, Good d x) ∧ (l.map (vm I)).prod = m := by
  induction l generalizing m with
  | nil => simp [Engine.prod_nil_iff, eq_comm]
  | cons x l ih =>
    rw [Engine.prod_cons_iff]
    constructor
    · rintro ⟨a, b, h1, h2, rfl⟩
      rw [ih] at h2
      refine ⟨fun y hy => ?_, by rw [List.map_cons, List.prod_cons, h2.2, h1.2]⟩
      rcases List.mem_cons.mp hy with rfl | hy
      · exact h1.1
      · exact h2.1 y hy
    · rintro ⟨h1, h2⟩
      exact ⟨vm I x, _, ⟨h1 x (by simp), rfl⟩, ih.mpr ⟨fun y hy => h1 y (by simp [hy]), rfl⟩, by rw [← h2]; simp⟩

theorem vm_prod (l : List (Ket ι K)) :
    (l.map (vm I)).prod = ((l.map (Ket.ev I)).prod, .ofAdd (l.map (fun x => x.space.val)).sum) := by
  induction l with
  | nil => rfl
  | cons a l ih => rw [List.map_cons, List.prod_cons, ih]; rfl

omit [CommRing K] [StarRing K] [DecidableEq K] in
theorem disjointFrom_spec {l : List (Ket ι K)} {spc : Finset ι} (h : disjointFrom spc l = true) :
    Disjoint spc (spaceL l) ∧ (spaceL l).val = (l.map (fun x => x.space.val)).sum := by
  induction l generalizing spc with
  | nil => rw [spaceL]; simp
  | cons o l ih =>
    rw [disjointFrom, Bool.and_eq_true, decide_eq_true_eq] at h
    obtain ⟨h1, h2⟩ := ih h.2
    rw [Finset.disjoint_union_left] at h1
    rw [spaceL, Finset.disjoint_union_right]
    refine ⟨⟨(Finset.disjoint_iff_inter_eq_empty.mpr h.1).symm, h1.1⟩, ?_⟩
    rw [Finset.union_val, ← (Multiset.add_eq_union_iff_disjoint).mpr (Finset.disjoint_val.mpr h1.2), h2]
    simp

omit [CommRing K] [StarRing K] [DecidableEq K] in
theorem spaceL_of_sum {l : List (Ket ι K)} {S : Finset ι} (h : S.val = (l.map (fun x => x.space.val)).sum) : S = spaceL l := by
  ext i
  rw [← Finset.mem_val, h]
  clear h
  induction l with
  | nil => rw [spaceL]; simp
  | cons a l ih => rw [spaceL, Finset.mem_union, ← ih]; simp

theorem vm_tensor {l : List (Ket ι K)} (h : disjointFrom ∅ l = true) : vm I (.tensor l) = (l.map (vm I)).prod := by
  rw [vm_prod, vm, Ket.ev, Ket.space, evL_eq, (disjointFrom_spec h).2]

theorem tensorCreate_aux (hs : mk.Sound I) : ∀ (n : ℕ) (ops : List (Ket ι K)) (r : Ket ι K), tensorCreate mk n ops = .ok r →
    (∀ o ∈ ops, Good d o) → Good d r ∧ vm I r = (ops.map (vm I)).prod := by
  intro n
  induction n with
  | zero => intro ops r h; simp [tensorCreate] at h
  | succ n ih =>
    intro ops r h hops
    rw [tensorCreate] at h
    rw [if_neg (by
      intro hc
      obtain ⟨x, hx, hz⟩ := List.any_eq_true.mp hc
      rw [(hops x hx).2] at hz; cases hz)] at h
    by_cases he : ops.isEmpty = true
    · rw [if_pos he] at h; cases h
    rw [if_neg he] at h
    have hflat : ∀ (x : Ket ι K) l a, flatTensor x = some l → VM I x a → Engine.Prod (VM I) l a := by
      intro x l a hl hv
      cases x <;> simp [flatTensor] at hl
      subst hl
      rw [prod_VM, ← hv.2]
      have hw := hv.1.1
      rw [Ket.wf, ketsWf_iff] at hw
      refine ⟨fun y hy => ⟨hw.1 y hy, ?_⟩, (vm_tensor hw.2.2).symm⟩
      by_contra hc
      have := hw.2.1
      rw [List.any_eq_false] at this
      exact this y hy (by simpa using hc)
    have hneu : ∀ (x : Ket ι K) a, x.isTriv = true → VM I x a → a = 1 := by
      intro x a hx hv
      rw [isTriv_iff] at hx
      subst hx
      rw [← hv.2, vm, Ket.ev, Ket.space]
      rfl
    have hne : VM I (.triv : Ket ι K) 1 := ⟨⟨by rw [Ket.wf]; trivial, rfl⟩, by rw [vm, Ket.ev, Ket.space]; rfl⟩
    have hsound : Engine.Sound (VM I) (tensorRule (tensorCreate mk n) (scalKet mk n)) Ket.isTriv flatTensor := by
      refine ⟨fun x y z a b hx hy hr => ?_, hneu, hflat⟩
      have key : ∀ (u : Sc ι K) (x' y' w : Ket ι K), u.wf d → u.isZero = false → Good d x' → Good d y' →
          tensorCreate mk n [x', y'] = .ok w → scalKet mk n u w = .ok z →
          VM I z ((u.ev I) • (vm I x').1 * (vm I y').1, (vm I x').2 * (vm I y').2) := by
        intro u x' y' w hu hu0 hx' hy' hw hz
        obtain ⟨k1, k2⟩ := ih [x', y'] w hw (by simp [hx', hy'])
        obtain ⟨m1, m2, m3, m4⟩ := scalKet_spec hs n u w z hz hu k1.1
        have m5 := m4 hu0 k1.2
        refine ⟨⟨m1, m5⟩, ?_⟩
        rw [vm, m2]
        rcases m3 with m3 | m3
        · rw [m3] at m5; simp [Ket.isZero] at m5
        · have k2' : vm I w = vm I x' * vm I y' := by rw [k2]; simp
          have e1 : w.ev I = (vm I x').1 * (vm I y').1 := congrArg Prod.fst k2'
          have e2 : Multiplicative.ofAdd w.space.val = (vm I x').2 * (vm I y').2 := congrArg Prod.snd k2'
          rw [m3.2, e1, e2]
          ext <;> simp [mul_assoc]
      unfold tensorRule at hr
      split at hr
      · obtain ⟨w', hw', hr⟩ := Except.bind_ok hr
        obtain ⟨w, hw, hw'⟩ := Except.bind_ok hw'
        injection hr with hr; injection hr with hr; subst hr
        have hx1 := hx.1.1
        rw [Ket.wf] at hx1
        have := key _ _ _ w hx1.1 hx1.2.2.1 ⟨hx1.2.1, hx1.2.2.2⟩ hy.1 hw hw'
        rwa [← hx.2, ← hy.2, show vm I (Ket.scal _ _) * vm I _ = _ from ?_]
        rw [vm, Ket.ev, Ket.space]
        rfl
      · obtain ⟨w', hw', hr⟩ := Except.bind_ok hr
        obtain ⟨w, hw, hw'⟩ := Except.bind_ok hw'
        injection hr with hr; injection hr with hr; subst hr
        have hy1 := hy.1.1
        rw [Ket.wf] at hy1
        have := key _ _ _ w hy1.1 hy1.2.2.1 hx.1 ⟨hy1.2.1, hy1.2.2.2⟩ hw hw'
        rwa [← hx.2, ← hy.2, show vm I _ * vm I (Ket.scal _ _) = _ from ?_]
        rw [show vm I (Ket.scal _ _) = ((Ket.scal _ _ : Ket ι K).ev I, .ofAdd (Ket.scal _ _ : Ket ι K).space.val) from rfl, Ket.ev, Ket.space]
        ext
        · simp [vm]; ring
        · rfl
      · cases hr
    have h1 : Engine.Prod (VM I) (mk.sort (Engine.assoc flatTensor ops)) (ops.map (vm I)).prod := by
      have := Engine.prod_assoc hflat (prod_VM.mpr ⟨hops, rfl⟩)
      rw [prod_VM] at this ⊢
      refine ⟨fun x hx => this.1 x ((hs.sort _).mem_iff.mp hx), ?_⟩
      rw [← this.2]
      exact ((hs.sort _).map _).prod_eq
    have h2 := Engine.filterNeutral_sound hneu hne h1
    cases e : Engine.filterNeutral .triv Ket.isTriv (mk.sort (Engine.assoc flatTensor ops)) with
    | single x =>
      rw [e] at h h2
      injection h with h; subst h
      exact h2
    | operands l =>
      rw [e] at h h2
      obtain ⟨o, ho, h⟩ := Except.bind_ok h
      have h3 := Engine.matchReplaceBinary_sound hsound hne h2 ho
      cases o with
      | single x =>
        injection h with h; subst h
        exact h3
      | operands l' =>
        rw [tensorEnd] at h
        split at h
        · rename_i hd
          injection h with h; subst h
          have h4 := prod_VM.mp h3
          refine ⟨⟨?_, rfl⟩, by rw [vm_tensor hd, h4.2]⟩
          rw [Ket.wf, ketsWf_iff]
          refine ⟨fun x hx => (h4.1 x hx).1, ?_, hd⟩
          rw [List.any_eq_false]
          intro x hx
          rw [(h4.1 x hx).2]; simp
        · cases h

omit [Fintype ι] [DecidableEq ι] [CommRing K] [StarRing K] [DecidableEq K] in
theorem zero_mem_any {l : List (Ket ι K)} : l.any Ket.isZero = true ↔ .zero ∈ l := by
  rw [List.any_eq_true]
  constructor
  · rintro ⟨x, hx, hz⟩
    rw [isZero_iff] at hz
    exact hz ▸ hx
  · intro h
    exact ⟨_, h, rfl⟩

omit [DecidableEq K] in
theorem prod_zero_mem {l : List (Ket ι K)} (h : Ket.zero ∈ l) : (l.map (Ket.ev I)).prod = 0 := by
  refine List.prod_eq_zero ?_
  rw [List.mem_map]
  exact ⟨.zero, h, by rw [Ket.ev]⟩

/-- `TensorKet.create`: zero if an operand is; otherwise the spaces of the operands are disjoint and make up the space of the result -/
theorem tensorCreate_spec (hs : mk.Sound I) {n : ℕ} {ops : List (Ket ι K)} {r : Ket ι K} (h : tensorCreate mk n ops = .ok r)
    (hw : ∀ o ∈ ops, o.wf d) : r.wf d ∧ r.ev I = (ops.map (Ket.ev I)).prod ∧
      ((.zero ∈ ops ∧ r = .zero) ∨ (.zero ∉ ops ∧ r.isZero = false ∧ r.space.val = (ops.map (fun x => x.space.val)).sum)) := by
  by_cases hz : .zero ∈ ops
  · cases n with
    | zero => simp [tensorCreate] at h
    | succ n =>
      rw [tensorCreate, if_pos (zero_mem_any.mpr hz)] at h
      injection h with h; subst h
      exact ⟨by rw [Ket.wf]; trivial, by rw [prod_zero_mem hz, Ket.ev], .inl ⟨hz, rfl⟩⟩
  · have hg : ∀ o ∈ ops, Good d o := fun o ho => ⟨hw o ho, by
      by_contra hc
      rw [Bool.not_eq_false, isZero_iff] at hc
      exact hz (hc ▸ ho)⟩
    obtain ⟨h1, h2⟩ := tensorCreate_aux hs n ops r h hg
    rw [vm_prod] at h2
    have e1 : r.ev I = _ := congrArg Prod.fst h2
    have e2 : Multiplicative.ofAdd r.space.val = _ := congrArg Prod.snd h2
    exact ⟨h1.1, e1, .inr ⟨hz, h1.2, Multiplicative.ofAdd.injective e2⟩⟩

theorem tensorCreate_good (hs : mk.Sound I) {n : ℕ} {ops : List (Ket ι K)} {r : Ket ι K} (h : tensorCreate mk n ops = .ok r)
    (hw : ∀ o ∈ ops, Good d o) : Good d r ∧ r.ev I = (ops.map (Ket.ev I)).prod ∧ r.space.val = (ops.map (fun x => x.space.val)).sum := by
  obtain ⟨h1, h2, h3⟩ := tensorCreate_spec hs h fun o ho => (hw o ho).1
  rcases h3 with h3 | h3
  · have := (hw _ h3.1).2
    simp [Ket.isZero] at this
  · exact ⟨⟨h1, h3.2.1⟩, h2, h3.2.2⟩

omit [Fintype ι] [DecidableEq ι] [CommRing K] [StarRing K] [DecidableEq K] in
theorem filter_split {α M : Type} [CommMonoid M] (f : α → M) (p : α → Bool) (l : List α) :
    (l.map f).prod = ((l.filter p).map f).prod * ((l.filter fun x => !p x).map f).prod := by
  induction l with
  | nil => simp
  | cons a l ih =>
    by_cases h : p a = true
    · rw [List.filter_cons_of_pos h, List.filter_cons_of_neg (by simp [h]), List.map_cons, List.prod_cons, ih, List.map_cons, List.prod_cons, mul_assoc]
    · rw [List.filter_cons_of_neg h, List.filter_cons_of_pos (by simpa using h), List.map_cons, List.prod_cons, ih, List.map_cons, List.prod_cons]
      rw [mul_left_comm]

omit [CommRing K] [StarRing K] [DecidableEq K] in
theorem filter_not (spc : Finset ι) (l : List (Ket ι K)) :
    (l.filter fun o => decide (o.space ∩ spc = ∅)) = l.filter fun o => !decide (o.space ∩ spc ≠ ∅) := by
  congr 1
  funext o
  simp

/-- what `factor_for_space` of a `TensorKet` returns -/
structure FactorKet (I : Interp ι d K) (spc : Finset ι) (l : List (Ket ι K)) (on off : Ket ι K) : Prop where
  on_good : Good d on
  off_good : Good d off
  ev : (Ket.tensor l).ev I = on.ev I * off.ev I
  disj : Disjoint on.space off.space
  space : on.space ∪ off.space = spaceL l
  off_spc : Disjoint off.space spc
  on_spc : spaceL l ∩ spc ⊆ on.space

theorem wf_tensor_good {l : List (Ket ι K)} (h : (Ket.tensor l).wf d) : (∀ o ∈ l, Good d o) ∧ disjointFrom ∅ l = true := by
  rw [Ket.wf, ketsWf_iff] at h
  refine ⟨fun o ho => ⟨h.1 o ho, ?_⟩, h.2.2⟩
  have := h.2.1
  rw [List.any_eq_false] at this
  simpa using this o ho

omit [CommRing K] [StarRing K] [DecidableEq K] in
theorem mem_filter_spaceL {spc : Finset ι} {i : ι} (hsp : i ∈ spc) {l : List (Ket ι K)} (hi : i ∈ spaceL l) :
    i ∈ spaceL (l.filter fun o => decide (o.space ∩ spc ≠ ∅)) := by
  induction l with
  | nil => rw [spaceL] at hi; simp at hi
  | cons a m ih =>
    rw [spaceL, Finset.mem_union] at hi
    rcases hi with hi | hi
    · rw [List.filter_cons_of_pos, spaceL]
      · exact Finset.mem_union_left _ hi
      · simp only [decide_eq_true_eq]
        intro he
        exact Finset.notMem_empty i (he ▸ Finset.mem_inter.mpr ⟨hi, hsp⟩)
    · by_cases ha : decide (a.space ∩ spc ≠ ∅) = true
      · rw [List.filter_cons_of_pos (p := fun o : Ket ι K => decide (o.space ∩ spc ≠ ∅)) ha, spaceL]
        exact Finset.mem_union_right _ (ih hi)
      · rw [List.filter_cons_of_neg (p := fun o : Ket ι K => decide (o.space ∩ spc ≠ ∅)) ha]
        exact ih hi

theorem factorKet_spec (hs : mk.Sound I) {n : ℕ} {spc : Finset ι} {l : List (Ket ι K)} {k : Ket ι K × Ket ι K}
    (h : factorKet mk n spc l = .ok k) (hw : (Ket.tensor l).wf d) : FactorKet I spc l k.1 k.2 := by
  obtain ⟨hg, hd⟩ := wf_tensor_good hw
  obtain ⟨on, hon, h⟩ := Except.bind_ok h
  obtain ⟨off, hoff, h⟩ := Except.bind_ok h
  injection h with h; subst h
  obtain ⟨a1, a2, a3⟩ := tensorCreate_good hs hon fun o ho => hg o (List.mem_filter.mp ho).1
  obtain ⟨b1, b2, b3⟩ := tensorCreate_good hs hoff fun o ho => hg o (List.mem_filter.mp ho).1
  have hsum : (spaceL l).val = on.space.val + off.space.val := by
    rw [(disjointFrom_spec hd).2, a3, b3, filter_not]
    exact filter_split (M := Multiplicative (Multiset ι)) (fun x => Multiplicative.ofAdd x.space.val) (fun o => decide (o.space ∩ spc ≠ ∅)) l
  have hoffs := spaceL_of_sum b3
  refine ⟨a1, b1, ?_, ?_, ?_, ?_, ?_⟩
  · rw [Ket.ev, evL_eq, a2, b2, filter_not]
    exact filter_split _ _ l
  · have := (spaceL l).nodup
    rw [hsum, Multiset.nodup_add] at this
    exact Finset.disjoint_val.mp this.2.2
  · ext i
    rw [Finset.mem_union, ← Finset.mem_val, ← Finset.mem_val, ← Finset.mem_val, hsum, Multiset.mem_add]
  · rw [hoffs, Finset.disjoint_left]
    clear hoffs
    intro i hi hsp
    have : ∀ m : List (Ket ι K), (∀ o ∈ m, o.space ∩ spc = ∅) → i ∉ spaceL m := by
      intro m
      induction m with
      | nil => intro _; rw [spaceL]; simp
      | cons a m ih =>
        intro hm
        rw [spaceL, Finset.mem_union, not_or]
        refine ⟨fun ha => ?_, ih fun o ho => hm o (by simp [ho])⟩
        have := hm a (by simp)
        exact Finset.notMem_empty i (this ▸ Finset.mem_inter.mpr ⟨ha, hsp⟩)
    exact this _ (fun o ho => by simpa using (List.mem_filter.mp ho).2) hi
  · rw [spaceL_of_sum a3]
    intro i hi
    rw [Finset.mem_inter] at hi
    exact mem_filter_spaceL hi.2 hi.1

/-! ## operators applied to kets -/

/-- the specification of `op * ket` -/
def OpKetSpec (I : Interp ι d K) (ok : Op ι K → Ket ι K → Res (Ket ι K)) : Prop :=
  ∀ A t r, ok A t = .ok r → A.wf d → t.wf d → r.wf d ∧ r.ev I = A.ev I *ᵥ t.ev I ∧ OkSp r t

/-- the product of the parts, each transformed, is what the product transforms to -/
theorem tensor_two (hs : mk.Sound I) {n : ℕ} {x y a b r : Ket ι K} (hr : tensorCreate mk n [x, y] = .ok r) (hx : x.wf d) (hy : y.wf d)
    (hxa : OkSp x a) (hyb : OkSp y b) {l : List (Ket ι K)} (hsp : a.space ∪ b.space = spaceL l) :
    r.wf d ∧ r.ev I = x.ev I * y.ev I ∧ OkSp r (.tensor l) := by
  obtain ⟨h1, h2, h3⟩ := tensorCreate_spec hs hr (by simp [hx, hy])
  refine ⟨h1, by simpa using h2, ?_⟩
  rcases h3 with h3 | h3
  · exact .inl h3.2
  · have hxy := h3.1
    simp only [List.mem_cons, List.not_mem_nil, or_false, not_or] at hxy
    have e1 := hxa.space_eq (Ne.symm hxy.1)
    have e2 := hyb.space_eq (Ne.symm hxy.2)
    refine .inr ⟨rfl, ?_⟩
    rw [spaceL_of_sum h3.2.2, spaceL, spaceL, spaceL, e1, e2, Finset.union_empty, hsp, Ket.space]

theorem orRaw_spec {A : Op ι K} {t r : Ket ι K} {o : Option (Ket ι K)} (h : orRaw A t o = .ok r) (hA : A.wf d) (ht : t.wf d) (h0 : t.isZero = false)
    (ho : ∀ x, o = some x → x.wf d ∧ x.ev I = A.ev I *ᵥ t.ev I ∧ OkSp x t) : r.wf d ∧ r.ev I = A.ev I *ᵥ t.ev I ∧ OkSp r t := by
  cases o with
  | some x => injection h with h; subst h; exact ho x rfl
  | none =>
    rw [orRaw, rawOpKet] at h
    split at h
    · rename_i hsp
      injection h with h; subst h
      exact ⟨by rw [Ket.wf]; exact ⟨hA, ht, hsp, h0⟩, by rw [Ket.ev], .inr ⟨h0, by rw [Ket.space]⟩⟩
    · cases h

theorem actLocally_spec (hs : mk.Sound I) {ok : Op ι K → Ket ι K → Res (Ket ι K)} (hok : OpKetSpec I ok) {n : ℕ} {A : Op ι K}
    {l : List (Ket ι K)} {o : Option (Ket ι K)} (h : actLocally mk ok n A l = .ok o) (hA : A.wf d) (hl : (Ket.tensor l).wf d) :
    ∀ x, o = some x → x.wf d ∧ x.ev I = A.ev I *ᵥ (Ket.tensor l).ev I ∧ OkSp x (.tensor l) := by
  intro r hr
  subst hr
  obtain ⟨k, hk, h⟩ := Except.bind_ok h
  have hf := factorKet_spec hs hk hl
  obtain ⟨on, off⟩ := k
  simp only at h hf
  split at h
  · injection h with h; cases h
  · obtain ⟨x, hx, h⟩ := Except.bind_ok h
    obtain ⟨r', hr, h⟩ := Except.bind_ok h
    injection h with h; injection h with h; subst h
    obtain ⟨x1, x2, x3⟩ := hok A on x hx hA hf.on_good.1
    obtain ⟨r1, r2, r3⟩ := tensor_two hs hr x1 hf.off_good.1 x3 (OkSp.refl _) hf.space
    refine ⟨r1, ?_, r3⟩
    rw [r2, x2, hf.ev, mulVec_mul (A.ev_acts I hA) (off.ev_dep I hf.off_good.1) hf.off_spc.symm]

omit [CommRing K] [StarRing K] [DecidableEq K] in
theorem firstLocal_some {α : Type} {f : Finset ι → Res (Option α)} {is : List ι} {x : α} (h : firstLocal f is = .ok (some x)) :
    ∃ S, f S = .ok (some x) := by
  induction is with
  | nil => cases h
  | cons i is ih =>
    rw [firstLocal] at h
    obtain ⟨o, ho, h⟩ := Except.bind_ok h
    cases o with
    | none => exact ih h
    | some y => injection h with h; injection h with h; subst h; exact ⟨_, ho⟩

/-- a product of matrices may be separated into two products, if the factors of the first commute with those of the second -/
theorem filter_prod {α R : Type} [Semiring R] (f : α → R) (p : α → Bool) (l : List α)
    (h : ∀ a ∈ l, ∀ b ∈ l, p a = true → p b = false → f a * f b = f b * f a) :
    (l.map f).prod = ((l.filter p).map f).prod * ((l.filter fun x => !p x).map f).prod := by
  induction l with
  | nil => simp
  | cons a l ih =>
    have ih' := ih fun x hx y hy => h x (by simp [hx]) y (by simp [hy])
    by_cases hp : p a = true
    · rw [List.filter_cons_of_pos hp, List.filter_cons_of_neg (by simp [hp]), List.map_cons, List.prod_cons, ih', List.map_cons, List.prod_cons, mul_assoc]
    · rw [List.filter_cons_of_neg hp, List.filter_cons_of_pos (by simpa using hp), List.map_cons, List.prod_cons, ih', List.map_cons, List.prod_cons]
      have : f a * ((l.filter p).map f).prod = ((l.filter p).map f).prod * f a := by
        have hc : ∀ m : List α, (∀ x ∈ m, x ∈ l ∧ p x = true) → f a * (m.map f).prod = (m.map f).prod * f a := by
          intro m
          induction m with
          | nil => intro _; simp
          | cons x m ihm =>
            intro hm
            have h1 := h x (by simp [(hm x (by simp)).1]) a (by simp) (hm x (by simp)).2 (by simpa using hp)
            rw [List.map_cons, List.prod_cons, ← mul_assoc, ← h1, mul_assoc, ihm fun y hy => hm y (by simp [hy]), mul_assoc]
        exact hc _ fun x hx => ⟨(List.mem_filter.mp hx).1, (List.mem_filter.mp hx).2⟩
      rw [← mul_assoc, this, mul_assoc]

theorem factorOp_spec (hs : mk.Sound I) {spc : Finset ι} {ops : List (Op ι K)} {A : Op ι K × Op ι K} (h : factorOp mk spc ops = .ok A)
    (hw : ∀ o ∈ ops, o.wf d) (hsafe : safeSplit spc ops = true) : A.1.wf d ∧ A.2.wf d ∧ (Op.times ops).ev I = A.1.ev I * A.2.ev I := by
  obtain ⟨on, hon, h⟩ := Except.bind_ok h
  obtain ⟨off, hoff, h⟩ := Except.bind_ok h
  injection h with h; subst h
  obtain ⟨a1, a2⟩ := hs.opTimes _ _ hon fun o ho => hw o (List.mem_filter.mp ho).1
  obtain ⟨b1, b2⟩ := hs.opTimes _ _ hoff fun o ho => hw o (List.mem_filter.mp ho).1
  refine ⟨a1, b1, ?_⟩
  have hn : (ops.filter fun o => decide (o.space ∩ spc = ∅)) = ops.filter fun o => !decide (o.space ∩ spc ≠ ∅) := by
    congr 1; funext o; simp
  rw [Op.ev, opEvL_eq, a2, b2, hn]
  refine filter_prod _ _ _ fun a ha b hb hpa hpb => ?_
  rw [safeSplit, List.all_eq_true] at hsafe
  have h1 := hsafe a (List.mem_filter.mpr ⟨ha, hpa⟩)
  rw [List.all_eq_true] at h1
  have h2 := h1 b (List.mem_filter.mpr ⟨hb, by simpa using hpb⟩)
  exact (a.ev_acts I (hw a ha)).commute (b.ev_acts I (hw b hb)) (Finset.disjoint_iff_inter_eq_empty.mpr (by simpa using h2))

omit [CommRing K] [StarRing K] [DecidableEq K] in
theorem safeSplit_of_keeps (hk : mk.KeepsSpace) {spc : Finset ι} {ops : List (Op ι K)} {A : Op ι K × Op ι K} (h : factorOp mk spc ops = .ok A)
    {S T : Finset ι} (h1 : A.1.space ⊆ S) (h2 : A.2.space ⊆ T) (hd : Disjoint S T) : safeSplit spc ops = true := by
  obtain ⟨on, hon, h⟩ := Except.bind_ok h
  obtain ⟨off, hoff, h⟩ := Except.bind_ok h
  injection h with h; subst h
  rw [safeSplit, List.all_eq_true]
  intro a ha
  rw [List.all_eq_true]
  intro b hb
  rw [decide_eq_true_eq, ← Finset.disjoint_iff_inter_eq_empty]
  simp only at h1 h2
  rw [hk _ _ hon] at h1
  rw [hk _ _ hoff] at h2
  exact hd.mono ((opSpace_sub_opSpaceL ha).trans h1) ((opSpace_sub_opSpaceL hb).trans h2)

theorem splitOpKet_spec (hs : mk.Sound I) (hst : mk.Safe) {n : ℕ} {ops : List (Op ι K)} {l : List (Ket ι K)} (hops : ∀ o ∈ ops, o.wf d) (hl : (Ket.tensor l).wf d) :
    ∀ (m : ℕ) (spc : Finset ι) (A : Op ι K × Op ι K) (k : Ket ι K × Ket ι K), splitOpKet mk n ops l m spc = .ok (some (A, k)) →
      A.1.wf d ∧ A.2.wf d ∧ (Op.times ops).ev I = A.1.ev I * A.2.ev I ∧ A.1.space ⊆ k.1.space ∧ A.2.space ⊆ k.2.space ∧
      ∃ spc', FactorKet I spc' l k.1 k.2 := by
  intro m
  induction m with
  | zero => intro spc A k h; simp [splitOpKet] at h
  | succ m ih =>
    intro spc A k h
    rw [splitOpKet] at h
    split at h
    · obtain ⟨A', hA, h⟩ := Except.bind_ok h
      obtain ⟨k', hk, h⟩ := Except.bind_ok h
      split at h
      · rename_i hc
        split at h
        · cases h
        · rename_i hsafe
          injection h with h; injection h with h
          injection h with h1 h2
          subst h1; subst h2
          have hf := factorKet_spec hs hk hl
          have hsafe : safeSplit spc ops = true := by
            rcases hst with hst | hst
            · rw [hst, Bool.true_and, Bool.not_eq_true', Bool.not_eq_false] at hsafe
              exact hsafe
            · exact safeSplit_of_keeps hst hA hc.1 hc.2.1 hf.disj
          obtain ⟨x1, x2, x3⟩ := factorOp_spec hs hA hops hsafe
          exact ⟨x1, x2, x3, hc.1, hc.2.1, spc, hf⟩
      · exact ih _ A k h
    · cases h

theorem actTimesTensor_spec (hs : mk.Sound I) (hst : mk.Safe) {ok : Op ι K → Ket ι K → Res (Ket ι K)} (hok : OpKetSpec I ok) {n : ℕ} {ops : List (Op ι K)}
    {l : List (Ket ι K)} {o : Option (Ket ι K)} (h : actTimesTensor mk ok n ops l = .ok o) (hops : ∀ o ∈ ops, o.wf d)
    (hl : (Ket.tensor l).wf d) : ∀ x, o = some x → x.wf d ∧ x.ev I = (Op.times ops).ev I *ᵥ (Ket.tensor l).ev I ∧ OkSp x (.tensor l) := by
  intro r hr
  subst hr
  obtain ⟨f, hf, h⟩ := Except.bind_ok h
  match f, hf, h with
  | none, hf, h => injection h with h; cases h
  | some (A, k), hf, h =>
    simp only at h
    obtain ⟨x, hx, h⟩ := Except.bind_ok h
    obtain ⟨y, hy, h⟩ := Except.bind_ok h
    obtain ⟨r', hr, h⟩ := Except.bind_ok h
    injection h with h; injection h with h; subst h
    obtain ⟨S, hS⟩ := firstLocal_some hf
    obtain ⟨a1, a2, a3, a4, a5, spc, hk⟩ := splitOpKet_spec hs hst hops hl n S A k hS
    obtain ⟨x1, x2, x3⟩ := hok _ _ _ hx a1 hk.on_good.1
    obtain ⟨y1, y2, y3⟩ := hok _ _ _ hy a2 hk.off_good.1
    obtain ⟨r1, r2, r3⟩ := tensor_two hs hr x1 y1 x3 y3 hk.space
    refine ⟨r1, ?_, r3⟩
    have hA1 := A.1.ev_acts I a1
    have hA2 := A.2.ev_acts I a2
    have d1 := k.1.ev_dep I hk.on_good.1
    have d2 := k.2.ev_dep I hk.off_good.1
    have dd := DependsOn.mulVec hA2 d2 a5
    rw [r2, x2, y2, hk.ev, a3, ← mulVec_mulVec, mul_comm (k.1.ev I), mulVec_mul hA2 d1 (hk.disj.symm.mono_left a5), mul_comm (A.2.ev I *ᵥ k.2.ev I),
      mulVec_mul hA1 dd (hk.disj.mono_left a4)]

theorem rawOpKet_spec {A : Op ι K} {t r : Ket ι K} (h : rawOpKet A t = .ok r) (hA : A.wf d) (ht : t.wf d) (h0 : t.isZero = false) :
    r.wf d ∧ r.ev I = A.ev I *ᵥ t.ev I ∧ OkSp r t :=
  orRaw_spec (o := none) h hA ht h0 fun x hx => by cases hx

theorem times_split (I : Interp ι d K) {l : List (Op ι K)} (h : 2 ≤ l.length) :
    (l.map (Op.ev I)).prod = (l.dropLast.map (Op.ev I)).prod * (l.getLastD .zero).ev I := by
  have hne : l ≠ [] := by intro hc; rw [hc] at h; simp at h
  conv_lhs => rw [← List.dropLast_append_getLast hne]
  rw [List.map_append, List.prod_append, List.getLastD_eq_getLast?, List.getLast?_eq_getLast_of_ne_nil hne]
  simp

theorem opKetRest_spec (hs : mk.Sound I) {n : ℕ} {ok : Op ι K → Ket ι K → Res (Ket ι K)} (hok : OpKetSpec I ok) {A : Op ι K} {t r : Ket ι K}
    (h : opKetRest mk (scalKet mk n) ok A t = .ok r) (hA : A.wf d) (ht : t.wf d) (h0 : t.isZero = false) :
    r.wf d ∧ r.ev I = A.ev I *ᵥ t.ev I ∧ OkSp r t := by
  unfold opKetRest at h
  split at h
  · rename_i A B t'
    rw [Ket.wf] at ht
    obtain ⟨x, hx, h⟩ := Except.bind_ok h
    obtain ⟨x1, x2, x3⟩ := hok _ _ _ hx ht.1 ht.2.1
    rw [Ket.ev]
    have hsp : OkSp t' (Ket.opKet B t') := .inr ⟨rfl, by rw [Ket.space]⟩
    split at h
    · obtain ⟨C, hC, h⟩ := Except.bind_ok h
      obtain ⟨c1, c2⟩ := hs.opTimes _ _ hC (by simp [hA, ht.1])
      obtain ⟨r1, r2, r3⟩ := hok _ _ _ h c1 ht.2.1
      refine ⟨r1, ?_, r3.trans hsp⟩
      rw [r2, c2, mulVec_mulVec]
      simp
    · obtain ⟨r1, r2, r3⟩ := hok _ _ _ h hA x1
      exact ⟨r1, by rw [r2, x2], r3.trans (x3.trans hsp)⟩
  · rename_i l t
    rw [Op.wf, opsWf_iff] at hA
    split at h
    · rename_i hc
      obtain ⟨C, hC, h⟩ := Except.bind_ok h
      obtain ⟨x, hx, h⟩ := Except.bind_ok h
      have hne : l ≠ [] := by intro hc'; rw [hc'] at hc; simp at hc
      have hlast : l.getLastD .zero ∈ l := by
        rw [List.getLastD_eq_getLast?, List.getLast?_eq_getLast_of_ne_nil hne]
        exact List.getLast_mem hne
      obtain ⟨c1, c2⟩ := hs.opTimes _ _ hC fun o ho => hA o (List.mem_of_mem_dropLast ho)
      obtain ⟨x1, x2, x3⟩ := hok _ _ _ hx (hA _ hlast) ht
      obtain ⟨r1, r2, r3⟩ := hok _ _ _ h c1 x1
      refine ⟨r1, ?_, r3.trans x3⟩
      · rw [r2, x2, c2, Op.ev, opEvL_eq, times_split I hc.1, mulVec_mulVec]
    · exact rawOpKet_spec h (by rw [Op.wf, opsWf_iff]; exact hA) ht h0
  · rename_i u A' t
    obtain ⟨x, hx, h⟩ := Except.bind_ok h
    rw [Op.wf] at hA
    obtain ⟨x1, x2, x3⟩ := hok _ _ _ hx hA.2 ht
    obtain ⟨r1, r2, r3, _⟩ := scalKet_spec hs n _ _ _ h hA.1 x1
    exact ⟨r1, by rw [r2, x2, Op.ev, smul_mulVec], r3.trans x3⟩
  · exact rawOpKet_spec h hA ht h0

end QNET.State
